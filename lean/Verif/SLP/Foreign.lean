import Verif.SLP.PropsCompile

/-!
# C15: variables that do not belong to the system

A variable that is neither in the variable ordering nor the path variable gets no location
(`Visit(Variable)` does nothing, `straight_line_program.cpp:344-346`), and the later lookup
`locations_encountered_nodes_[n]` inserts location 0, which is that of the first input.
-/

namespace B2.SLP

set_option linter.unusedSectionVars false

variable {C V : Type} [One C]

open Classical in
/-- The state in which the variables satisfying `F` already have location 0. -/
noncomputable def CState.fill (F : ℕ → Prop) (s : CState C) : CState C :=
  { s with loc := fun j => if F j then some 0 else s.loc j }

/-- The variables satisfying `F` have no location or location 0. -/
def ForeignOk (F : ℕ → Prop) (s : CState C) : Prop := ∀ j, F j → s.loc j = none ∨ s.loc j = some 0

variable {F : ℕ → Prop} {G : Graph C}

theorem fill_loc_pos {s : CState C} {j : ℕ} (h : F j) : (s.fill F).loc j = some 0 := by
  simp [CState.fill, h]

theorem fill_loc_neg {s : CState C} {j : ℕ} (h : ¬ F j) : (s.fill F).loc j = s.loc j := by
  simp [CState.fill, h]

theorem fill_setLoc {s : CState C} {i l : ℕ} (h : ¬ F i) :
    (s.setLoc i l).fill F = (s.fill F).setLoc i l := by
  simp only [CState.fill, CState.setLoc, CState.mk.injEq, true_and, and_true]
  funext j
  by_cases hj : j = i
  · subst hj; simp [h]
  · simp [hj]

theorem foreignOk_setLoc {s : CState C} {i l : ℕ} (h : ¬ F i) (hg : ForeignOk F s) : ForeignOk F (s.setLoc i l) := by
  intro j hj
  have : j ≠ i := fun e => h (e ▸ hj)
  simpa [CState.setLoc, this] using hg j hj

theorem fill_intIndex (s : CState C) (k : ℤ) :
    (s.fill F).intIndex k = ((s.intIndex k).1, (s.intIndex k).2.fill F) := by
  unfold CState.intIndex
  cases h : s.intLoc k with
  | none => simp [CState.fill, h]
  | some l => simp [CState.fill, h]

theorem foreignOk_of_loc {s s' : CState C} (h : s'.loc = s.loc) (hg : ForeignOk F s) : ForeignOk F s' := by
  intro j hj
  rw [h]
  exact hg j hj

/-- Looking up a location. -/
theorem fill_getLoc {s : CState C} (hg : ForeignOk F s) (j : ℕ) :
    (s.fill F).getLoc j = ((s.getLoc j).1, (s.getLoc j).2.fill F) ∧ ForeignOk F (s.getLoc j).2 := by
  by_cases hF : F j
  · rw [getLoc_some (fill_loc_pos hF)]
    unfold CState.getLoc
    rcases hg j hF with h | h
    · simp only [h]
      refine ⟨?_, ?_⟩
      · simp only [Prod.mk.injEq, true_and, CState.fill, CState.setLoc, CState.mk.injEq, and_true]
        funext k
        by_cases hk : k = j
        · subst hk; simp [hF]
        · simp [hk]
      · intro k hk
        by_cases e : k = j
        · subst e; right; simp [CState.setLoc]
        · simpa [CState.setLoc, e] using hg k hk
    · simp only [h]
      exact ⟨trivial, hg⟩
  · cases hl : s.loc j with
    | some l =>
      rw [getLoc_some hl, getLoc_some (by rw [fill_loc_neg hF]; exact hl)]
      exact ⟨rfl, hg⟩
    | none =>
      unfold CState.getLoc
      rw [fill_loc_neg hF, hl]
      exact ⟨by simp only [fill_setLoc hF], foreignOk_setLoc hF hg⟩

/-- What is to be shown about visiting node `i`. -/
def VisitSim (F : ℕ → Prop) (G : Graph C) (i : ℕ) : Prop :=
  ∀ s : CState C, ForeignOk F s → visit G i (s.fill F) = (visit G i s).map (CState.fill F) ∧
    ∀ s', visit G i s = some s' → ForeignOk F s'

theorem ensure_sim {j : ℕ} (hF : ∀ j, F j → G.cell j = .var) (hj : ¬ F j → VisitSim F G j) (s : CState C) (hg : ForeignOk F s) :
    ensure (visit G) j (s.fill F) = (ensure (visit G) j s).map (CState.fill F) ∧
      ∀ s', ensure (visit G) j s = some s' → ForeignOk F s' := by
  unfold ensure
  by_cases h : F j
  · rw [fill_loc_pos h]
    cases hl : s.loc j with
    | some l => exact ⟨rfl, fun s' e => by cases e; exact hg⟩
    | none =>
      have : visit G j s = some s := by rw [visit_eq, visitWith, hF j h]
      simp only [this]
      exact ⟨rfl, fun s' e => by cases e; exact hg⟩
  · rw [fill_loc_neg h]
    cases hl : s.loc j with
    | some l => exact ⟨rfl, fun s' e => by cases e; exact hg⟩
    | none => exact hj h s hg

theorem gather_sim (hF : ∀ j, F j → G.cell j = .var) (js : List ℕ) (hj : ∀ j ∈ js, ¬ F j → VisitSim F G j) :
    ∀ s : CState C, ForeignOk F s →
      gather (visit G) js (s.fill F) = (gather (visit G) js s).map (fun p => (p.1, p.2.fill F)) ∧
      ∀ p, gather (visit G) js s = some p → ForeignOk F p.2 := by
  induction js with
  | nil => exact fun s hg => ⟨rfl, fun p e => by cases e; exact hg⟩
  | cons j js ih =>
    intro s hg
    obtain ⟨e1, g1⟩ := ensure_sim hF (hj j (by simp)) s hg
    simp only [gather, e1]
    cases h1 : ensure (visit G) j s with
    | none => simp
    | some s1 =>
      obtain ⟨e2, g2⟩ := fill_getLoc (g1 s1 h1) j
      obtain ⟨e3, g3⟩ := ih (fun j' h' => hj j' (by simp [h'])) _ g2
      simp only [Option.map_some, Option.bind_eq_bind, Option.bind_some, e2, e3]
      cases h3 : gather (visit G) js (s1.getLoc j).2 with
      | none => simp
      | some q =>
        refine ⟨rfl, fun p e => ?_⟩
        cases e
        exact g3 q h3

theorem chain_sim (opT opF : BinOp) (r : List (Bool × ℕ)) : ∀ (prev : ℕ) (s : CState C),
    chain opT opF prev r (s.fill F) = ((chain opT opF prev r s).1, (chain opT opF prev r s).2.fill F) := by
  induction r with
  | nil => exact fun prev s => rfl
  | cons a r ih =>
    intro prev s
    simp only [chain]
    exact ih s.next (s.emit (.bin (if a.1 then opT else opF) prev a.2 s.next)).bump

theorem sumCode_sim (r : List (Bool × ℕ)) (s : CState C) :
    sumCode r (s.fill F) = (sumCode r s).map (fun p => (p.1, p.2.fill F)) := by
  cases r with
  | nil => rfl
  | cons a r =>
    obtain ⟨b, l⟩ := a
    cases b with
    | true => exact congrArg some (chain_sim .add .sub r l s)
    | false => exact congrArg some (chain_sim .add .sub r s.next (s.emit (.un .neg l s.next)).bump)

theorem multCode_sim (r : List (Bool × ℕ)) (s : CState C) :
    multCode r (s.fill F) = (multCode r s).map (fun p => (p.1, p.2.fill F)) := by
  cases r with
  | nil => rfl
  | cons a r =>
    obtain ⟨b, l⟩ := a
    cases b with
    | true => exact congrArg some (chain_sim .mul .div r l s)
    | false =>
      exact congrArg some (chain_sim .mul .div r (s.addNum 1).next
        ((s.addNum 1).emit (.bin .div s.next l (s.addNum 1).next)).bump)

theorem visit_sim (G : Graph C) (hF : ∀ j, F j → G.cell j = .var) (i : ℕ) (hi : ¬ F i) : VisitSim F G i := by
  induction i using Nat.strong_induction_on with
  | _ i ih =>
  intro s hg
  have hop : ∀ j ∈ (G.cell i).operands, ¬ F j → VisitSim F G j := fun j hj hjF => ih j (G.acyclic i j hj) hjF
  rw [visit_eq, visit_eq]
  unfold visitWith
  cases hc : G.cell i with
  | var => exact ⟨rfl, fun s' e => by cases e; exact hg⟩
  | num c =>
    refine ⟨?_, fun s' e => ?_⟩
    · simp only [Option.map_some, fill_setLoc hi]
      rfl
    · cases e
      exact foreignOk_setLoc hi (foreignOk_of_loc rfl hg)
  | other os => exact ⟨rfl, fun s' e => by cases e⟩
  | fn n =>
    obtain ⟨e1, g1⟩ := ensure_sim hF (hop n (by simp [hc, Cell.operands])) s hg
    simp only [e1]
    cases h1 : ensure (visit G) n s with
    | none => simp
    | some s1 =>
      obtain ⟨e2, g2⟩ := fill_getLoc (g1 s1 h1) n
      simp only [Option.map_some, Option.bind_eq_bind, Option.bind_some, e2, fill_loc_neg hi]
      cases h2 : (s1.getLoc n).2.loc i with
      | none =>
        simp only [Option.some.injEq]
        refine ⟨?_, fun s' e => ?_⟩
        · have : ((s1.getLoc n).2.setLoc i (s1.getLoc n).2.next).fill F =
              ((s1.getLoc n).2.fill F).setLoc i (s1.getLoc n).2.next := fill_setLoc hi
          have h3 : ∀ t : CState C, ∀ c, (t.bump.emit c).fill F = (t.fill F).bump.emit c := fun _ _ => rfl
          rw [h3, this]
          rfl
        · subst e
          exact foreignOk_of_loc rfl (foreignOk_setLoc (l := (s1.getLoc n).2.next) hi g2)
      | some l =>
        simp only [Option.some.injEq]
        refine ⟨rfl, fun s' e => ?_⟩
        subst e
        exact foreignOk_of_loc rfl g2
  | un f n =>
    obtain ⟨e1, g1⟩ := ensure_sim hF (hop n (by simp [hc, Cell.operands])) s hg
    simp only [e1]
    cases h1 : ensure (visit G) n s with
    | none => simp
    | some s1 =>
      obtain ⟨e2, g2⟩ := fill_getLoc (g1 s1 h1) n
      simp only [Option.map_some, Option.bind_eq_bind, Option.bind_some, e2, Option.some.injEq]
      refine ⟨?_, fun s' e => ?_⟩
      · have h3 : ∀ t : CState C, ∀ c, ((t.emit c).bump).fill F = ((t.fill F).emit c).bump := fun _ _ => rfl
        rw [h3, fill_setLoc hi]
        rfl
      · subst e
        exact foreignOk_of_loc rfl (foreignOk_setLoc (l := (s1.getLoc n).2.next) hi g2)
  | ipow n k =>
    obtain ⟨e1, g1⟩ := ensure_sim hF (hop n (by simp [hc, Cell.operands])) s hg
    simp only [e1]
    cases h1 : ensure (visit G) n s with
    | none => simp
    | some s1 =>
      obtain ⟨e2, g2⟩ := fill_getLoc (g1 s1 h1) n
      simp only [Option.map_some, Option.bind_eq_bind, Option.bind_some, e2, Option.some.injEq, fill_intIndex]
      refine ⟨?_, fun s' e => ?_⟩
      · have h3 : ∀ t : CState C, ∀ c, ((t.emit c).bump).fill F = ((t.fill F).emit c).bump := fun _ _ => rfl
        rw [h3, fill_setLoc hi]
        rfl
      · subst e
        exact foreignOk_of_loc rfl (foreignOk_setLoc (l := ((s1.getLoc n).2.intIndex k).2.next) hi
          (foreignOk_of_loc (intIndex_loc _ _) g2))
  | pow b x =>
    obtain ⟨e1, g1⟩ := ensure_sim hF (hop b (by simp [hc, Cell.operands])) s hg
    simp only [e1]
    cases h1 : ensure (visit G) b s with
    | none => simp
    | some s1 =>
      obtain ⟨e2, g2⟩ := ensure_sim hF (hop x (by simp [hc, Cell.operands])) s1 (g1 s1 h1)
      simp only [Option.map_some, Option.bind_eq_bind, Option.bind_some, e2]
      cases h2 : ensure (visit G) x s1 with
      | none => simp
      | some s2 =>
        obtain ⟨e3, g3⟩ := fill_getLoc (g2 s2 h2) b
        obtain ⟨e4, g4⟩ := fill_getLoc g3 x
        simp only [Option.map_some, Option.bind_some, e3, e4, Option.some.injEq]
        refine ⟨?_, fun s' e => ?_⟩
        · have h3 : ∀ t : CState C, ∀ c, ((t.emit c).bump).fill F = ((t.fill F).emit c).bump := fun _ _ => rfl
          rw [h3, fill_setLoc hi]
          rfl
        · subst e
          exact foreignOk_of_loc rfl (foreignOk_setLoc (l := ((s2.getLoc b).2.getLoc x).2.next) hi g4)
  | sum ops =>
    obtain ⟨e1, g1⟩ := gather_sim hF (ops.map Prod.snd) (fun j hj => hop j (by rw [hc]; exact hj)) s hg
    simp only [e1]
    cases h1 : gather (visit G) (ops.map Prod.snd) s with
    | none => simp
    | some p =>
      simp only [Option.map_some, Option.bind_eq_bind, Option.bind_some, sumCode_sim]
      cases h2 : sumCode ((ops.map Prod.fst).zip p.1) p.2 with
      | none => simp
      | some q =>
        simp only [Option.map_some, Option.bind_some, Option.some.injEq]
        refine ⟨(fill_setLoc hi).symm, fun s' e => ?_⟩
        subst e
        exact foreignOk_setLoc hi (foreignOk_of_loc (sumCode_loc h2) (g1 p h1))
  | mult ops =>
    obtain ⟨e1, g1⟩ := gather_sim hF (ops.map Prod.snd) (fun j hj => hop j (by rw [hc]; exact hj)) s hg
    simp only [e1]
    cases h1 : gather (visit G) (ops.map Prod.snd) s with
    | none => simp
    | some p =>
      simp only [Option.map_some, Option.bind_eq_bind, Option.bind_some, multCode_sim]
      cases h2 : multCode ((ops.map Prod.fst).zip p.1) p.2 with
      | none => simp
      | some q =>
        simp only [Option.map_some, Option.bind_some, Option.some.injEq]
        refine ⟨(fill_setLoc hi).symm, fun s' e => ?_⟩
        subst e
        exact foreignOk_setLoc hi (foreignOk_of_loc (multCode_loc h2) (g1 p h1))

theorem visitAll_sim (G : Graph C) (hF : ∀ j, F j → G.cell j = .var) (tops : List ℕ) (ht : ∀ f ∈ tops, ¬ F f) :
    ∀ s : CState C, ForeignOk F s → visitAll G tops (s.fill F) = (visitAll G tops s).map (CState.fill F) := by
  induction tops with
  | nil => exact fun s _ => rfl
  | cons f tops ih =>
    intro s hg
    obtain ⟨e1, g1⟩ := visit_sim G hF f (ht f (by simp)) s hg
    simp only [visitAll, List.foldlM_cons, e1]
    cases h1 : visit G f s with
    | none => simp
    | some s1 => exact ih (fun g hg' => ht g (by simp [hg'])) s1 (g1 s1 h1)

/-- A variable that is not an input of the system. -/
def IsForeign (G : Graph C) (sys : Sys) (j : ℕ) : Prop := G.cell j = .var ∧ j ∉ sys.inputs

/-- Values of the variables in which those that are not inputs have the value of the first input. -/
def readAs (sys : Sys) (h : 0 < sys.inputs.length) (x : ℕ → V) : ℕ → V :=
  fun j => if j ∈ sys.inputs then x j else x sys.inputs[0]

theorem initial_foreignOk (G : Graph C) (sys : Sys) (ht : ∀ f ∈ sys.tops, ∃ n, G.cell f = .fn n) :
    ForeignOk (IsForeign G sys) ((CState.init : CState C).reserve (sys.inputs ++ sys.tops)) := by
  intro j hj
  left
  rw [reserve_loc_not_mem]
  · rfl
  · intro hm
    rcases List.mem_append.1 hm with h | h
    · exact hj.2 h
    · obtain ⟨n, hn⟩ := ht j h
      rw [hj.1] at hn
      cases hn

theorem initial_inv_fill (G : Graph C) (A : Arith C V) (x : ℕ → V) (sys : Sys) (h0 : 0 < sys.inputs.length)
    (hnd : (sys.inputs ++ sys.tops).Nodup) (hin : ∀ v ∈ sys.inputs, G.cell v = .var)
    (ht : ∀ f ∈ sys.tops, ∃ n, G.cell f = .fn n) :
    Inv G A (readAs sys h0 x) sys.inputs.length
      (fun m => ∀ k (hk : k < sys.inputs.length), m k = x sys.inputs[k]) sys.tops
      (((CState.init : CState C).reserve (sys.inputs ++ sys.tops)).fill (IsForeign G sys)) := by
  have hI : (fun m : Mem V => ∀ k (hk : k < sys.inputs.length), m k = x sys.inputs[k]) =
      fun m => ∀ k (hk : k < sys.inputs.length), m k = readAs sys h0 x sys.inputs[k] := by
    funext m
    refine propext (forall_congr' fun k => forall_congr' fun hk => ?_)
    simp [readAs]
  have h := initial_inv G A (readAs sys h0 x) sys hnd hin
  rw [← hI] at h
  have hnf : ∀ p ∈ sys.tops, ¬ IsForeign G sys p := by
    intro p hp hf
    obtain ⟨n, hn⟩ := ht p hp
    rw [hf.1] at hn
    cases hn
  have hold : ∀ l v, Holds A sys.inputs.length (fun m => ∀ k (hk : k < sys.inputs.length), m k = x sys.inputs[k])
      sys.tops ((CState.init : CState C).reserve (sys.inputs ++ sys.tops)) l v →
      Holds A sys.inputs.length (fun m => ∀ k (hk : k < sys.inputs.length), m k = x sys.inputs[k])
      sys.tops (((CState.init : CState C).reserve (sys.inputs ++ sys.tops)).fill (IsForeign G sys)) l v := by
    intro l v hl
    exact ⟨hl.lt, fun p hp => by rw [fill_loc_neg (hnf p hp)]; exact hl.sep p hp, hl.avail, hl.val⟩
  refine ⟨h.outLt, h.numLt, h.inLe, h.reads, h.ints, ?_, ?_, ?_⟩
  · intro p hp
    rw [fill_loc_neg (hnf p hp)]
    exact h.pend p hp
  · intro p hp q hq
    rw [fill_loc_neg (hnf p hp), fill_loc_neg (hnf q hq)]
    exact h.inj p hp q hq
  · intro j l hj hjP
    apply hold
    by_cases hF : IsForeign G sys j
    · rw [fill_loc_pos hF] at hj
      cases hj
      have hl0 : ((CState.init : CState C).reserve (sys.inputs ++ sys.tops)).loc sys.inputs[0] = some 0 := by
        have := initial_loc (C := C) sys hnd 0 (by simp; omega)
        rwa [List.getElem_append_left h0] at this
      have hnt : sys.inputs[0] ∉ sys.tops := by
        intro hm
        obtain ⟨n, hn⟩ := ht _ hm
        rw [hin _ (List.getElem_mem _)] at hn
        cases hn
      refine (h.done _ _ hl0 hnt).congr ?_
      rw [value_eq, value_eq, valueWith, valueWith, hin _ (List.getElem_mem _), hF.1]
      simp [readAs, hF.2]
    · rw [fill_loc_neg hF] at hj
      exact h.done j l hj hjP

/-- C15 for systems with foreign variables: whenever functions are distinct and come after the functions they use, the
compiled program computes the values of the expression trees with every foreign variable replaced by the first input (the
first variable of the ordering).  The other hypotheses are those of `C15_compile_correct_partial` without `closed`. -/
theorem C15_foreign (G : Graph C) (A : Arith C V) (sys : Sys) (p : Prog C) (hs : sys.Shape G)
    (h0 : 0 < sys.inputs.length) (hnd : (sys.inputs ++ sys.tops).Nodup)
    (hor : ∀ pre f post, sys.tops = pre ++ f :: post → ∀ j, Below G f j → j ∉ post)
    (hp : compile G sys = some p) (x : ℕ → V) (old : Mem V) :
    ∃ m, runOn A p sys x old = some m ∧
      (∀ i (h : i < sys.functions.length), p.func m i = value G A (readAs sys h0 x) sys.functions[i]) ∧
      (∀ i j (h : i + j * sys.functions.length < sys.dx.length),
        p.jac m i j = value G A (readAs sys h0 x) sys.dx[i + j * sys.functions.length]) ∧
      (sys.path.isSome → ∀ i (h : i < sys.dt.length),
        p.timeDeriv m i = value G A (readAs sys h0 x) sys.dt[i]) := by
  obtain ⟨s, hvis, e1, e2, e3, e4, e5, e6, e7, e8, e9, e10, e11, e12⟩ := compile_some hp
  have hnf : ∀ f ∈ sys.tops, ¬ IsForeign G sys f := by
    intro f hf hF
    obtain ⟨n, hn⟩ := hs.topsFn f hf
    rw [hF.1] at hn
    cases hn
  have hvis' := visitAll_sim G (F := IsForeign G sys) (fun j hj => hj.1) sys.tops hnf _
    (initial_foreignOk G sys hs.topsFn)
  rw [hvis, Option.map_some] at hvis'
  have hvars : ∀ f ∈ sys.tops, ∀ j, Below G f j → G.cell j = .var →
      (((CState.init : CState C).reserve (sys.inputs ++ sys.tops)).fill (IsForeign G sys)).loc j ≠ none := by
    intro f hf j hj hc
    by_cases hF : IsForeign G sys j
    · rw [fill_loc_pos hF]; simp
    · rw [fill_loc_neg hF]
      have hm : j ∈ sys.inputs := by
        by_contra hcon
        exact hF ⟨hc, hcon⟩
      obtain ⟨k, hk, hk2⟩ := List.getElem_of_mem (List.mem_append_left sys.tops hm)
      rw [← hk2, initial_loc sys hnd k hk]
      simp
  have htops : sys.tops.Nodup := (List.nodup_append.1 hnd).2.1
  have hord : ∀ pre f post n, sys.tops = pre ++ f :: post → G.cell f = .fn n →
      ∀ j, Below G n j → j ∉ f :: (post ++ []) := by
    intro pre f post n he hf j hj hmem
    have hm : n ∈ (G.cell f).operands := by simp [hf, Cell.operands]
    rw [List.append_nil] at hmem
    rcases List.mem_cons.1 hmem with rfl | hmem
    · have := below_le hj
      have := G.acyclic j n hm
      omega
    · exact hor pre f post he j (.step hm hj) hmem
  obtain ⟨hi, hl⟩ := visitAll_spec (G := G) (A := A) (x := readAs sys h0 x)
    (I := fun m => ∀ k (hk : k < sys.inputs.length), m k = x sys.inputs[k]) sys.tops [] _ _
    (by rwa [List.append_nil]) hs.topsFn hord hvars
    (by rw [List.append_nil]; exact initial_inv_fill G A x sys h0 hnd hs.inputsVar hs.topsFn) hvis'
  obtain ⟨vis, hcnt⟩ := visitAll_cnt (G := G) (R := fun _ => True) (N := sys.inputs.length)
    (by simp) sys.tops [] [] _ s (by rwa [List.append_nil]) hs.topsFn (by simp)
    (by rw [List.append_nil]; exact initial_cnt G _ sys hnd) hvis
  obtain ⟨m0, hm, hI, hL, -⟩ := runOn_spec (A := A) (x := x) (old := old) e5 e6 e8 e9
    (by rw [e3]; exact fun q hq => (hcnt.num q hq).2.1) (by rw [e3]; exact hcnt.numNodup)
  have hout : ∀ k (hk : k < sys.tops.length),
      exec A p.ints p.instrs m0 (sys.inputs.length + k) = value G A (readAs sys h0 x) sys.tops[k] := by
    intro k hk
    have hk' : sys.inputs.length + k < (sys.inputs ++ sys.tops).length := by simp [hk]
    have h1 := initial_loc (C := C) sys hnd (sys.inputs.length + k) hk'
    rw [List.getElem_append_right (by omega)] at h1
    simp only [Nat.add_sub_cancel_left] at h1
    rw [← fill_loc_neg (F := IsForeign G sys) (hnf _ (List.getElem_mem _))] at h1
    have h2 := hl sys.tops[k] (by rw [h1]; simp)
    rw [h1] at h2
    have h3 := hi.done _ _ h2 (by simp)
    rw [e2, e4]
    exact h3.val s.ints m0 (List.prefix_refl _) hI (fun q hq => hL q (by rw [e3]; exact hq))
  refine ⟨_, hm, ?_, ?_, ?_⟩
  · intro i h
    have := hout i (by simp [Sys.tops]; omega)
    rw [Prog.func, e10, Nat.add_comm, this]
    congr 1
    simp only [Sys.tops, List.append_assoc]
    rw [List.getElem_append_left h]
  · intro i j h
    have := hout (sys.functions.length + (i + j * sys.functions.length))
      (by simp [Sys.tops]; omega)
    rw [Prog.jac, e7, e11, show i + j * sys.functions.length +
      (sys.inputs.length + sys.functions.length) = sys.inputs.length +
      (sys.functions.length + (i + j * sys.functions.length)) by omega, this]
    congr 1
    simp only [Sys.tops, List.append_assoc]
    rw [List.getElem_append_right (by omega), List.getElem_append_left (by omega)]
    congr 1
    omega
  · intro hpath i h
    have := hout (sys.functions.length + (sys.dx.length + i))
      (by simp [Sys.tops, hpath]; omega)
    rw [Prog.timeDeriv, e12 hpath, show i +
      (sys.inputs.length + sys.functions.length + sys.dx.length) = sys.inputs.length +
      (sys.functions.length + (sys.dx.length + i)) by omega, this]
    congr 1
    simp only [Sys.tops, List.append_assoc, hpath, if_true]
    rw [List.getElem_append_right (by omega), List.getElem_append_right (by omega)]
    congr 1
    omega

/-- A system with the variable `x` and the function `y`: the program computes `x`. -/
example (p : Prog ℤ) (hp : compile exGraph ⟨[0], none, [7], [8], []⟩ = some p) (x : ℕ → ℤ) (old : Mem ℤ) :
    ∃ m, runOn intArith p ⟨[0], none, [7], [8], []⟩ x old = some m ∧ p.func m 0 = x 0 := by
  have hor : ∀ pre f post, (⟨[0], none, [7], [8], []⟩ : Sys).tops = pre ++ f :: post →
      ∀ j, Below exGraph f j → j ∉ post := by
    intro pre f post he j hj hm
    have hle := below_le hj
    have ht : (⟨[0], none, [7], [8], []⟩ : Sys).tops = [7, 8] := rfl
    rw [ht] at he
    match pre, he with
    | [], he =>
      simp only [List.nil_append, List.cons.injEq] at he
      obtain ⟨rfl, rfl⟩ := he
      simp only [List.mem_singleton] at hm
      omega
    | [_], he =>
      simp only [List.cons_append, List.nil_append, List.cons.injEq] at he
      obtain ⟨-, -, rfl⟩ := he
      simp at hm
    | _ :: _ :: r, he =>
      have := congrArg List.length he
      simp at this
  obtain ⟨m, hm, h1, -⟩ := C15_foreign exGraph intArith ⟨[0], none, [7], [8], []⟩ p
    (exGraph_shape _ (by simp [Sys.inputs]) (by simp [Sys.tops]) (by decide) (by decide))
    (by simp [Sys.inputs]) (by decide) hor hp x old
  refine ⟨m, hm, ?_⟩
  rw [h1 0 (by simp)]
  rw [show ((⟨[0], none, [7], [8], []⟩ : Sys).functions[0]) = 7 from rfl, (exGraph_values _ _).2.2]
  simp [readAs, Sys.inputs]

end B2.SLP
