import Verif.SLP.Proof

/-!
# One compiler for several systems

`SLPCompiler::Clear` (`straight_line_program.cpp:870-876`) is there "to compile another SLP from another system"
(`straight_line_program.hpp:716-719`). It resets the counter, the locations of the nodes and the program under
construction, but not `locations_integers_`.
-/

namespace B2.SLP

variable {C V : Type} [One C]

/-- `Clear()`: the state in which `Compile` starts when `L` is what `locations_integers_` holds from before. -/
def CState.cleared (L : ℤ → Option ℕ) : CState C := { (CState.init : CState C) with intLoc := L }

/-- `SLPCompiler::Compile`, `straight_line_program.cpp:739-868`, with `locations_integers_` before and after. -/
def compileFrom (L : ℤ → Option ℕ) (G : Graph C) (sys : Sys) : Option (Prog C × (ℤ → Option ℕ)) := do
  let s1 := (CState.cleared L : CState C).reserve sys.vars
  let s2 := s1.reserve sys.path.toList
  let s3 := s2.reserve sys.functions
  let s4 := s3.reserve sys.dx
  let s5 := if sys.path.isSome then s4.reserve sys.dt else s4
  let s6 ← visitAll G sys.functions s5
  let s7 ← visitAll G sys.dx s6
  let s8 ← visitAll G (if sys.path.isSome then sys.dt else []) s7
  some ({ numVars := sys.vars.length
          hasPath := sys.path.isSome
          numFunctions := sys.functions.length
          varBase := 0
          timeLoc := if sys.path.isSome then s1.next else 0
          fnBase := s2.next
          jacBase := s3.next
          dtBase := if sys.path.isSome then s4.next else 0
          size := s8.next
          ints := s8.ints
          nums := s8.nums
          instrs := s8.code }, s8.intLoc)

/-- Several calls of `Compile` of one compiler, one system after the other. `none`: one of them threw. -/
def compileAll (L : ℤ → Option ℕ) : List (Graph C × Sys) → Option (List (Prog C))
  | [] => some []
  | p :: ps => do
      let r ← compileFrom L p.1 p.2
      let rs ← compileAll r.2 ps
      some (r.1 :: rs)

/-- A state with more integers known. -/
def CState.merge (L : ℤ → Option ℕ) (s : CState C) : CState C :=
  { s with intLoc := fun k => (s.intLoc k).or (L k) }

/-- The exponents that occur below a node. -/
def Expo (G : Graph C) (i : ℕ) (k : ℤ) : Prop := ∃ j b, Below G i j ∧ G.cell j = .ipow b k

variable {L : ℤ → Option ℕ} {G : Graph C}

theorem merge_getLoc (s : CState C) (j : ℕ) :
    (s.merge L).getLoc j = ((s.getLoc j).1, (s.getLoc j).2.merge L) := by
  unfold CState.getLoc
  have : (s.merge L).loc j = s.loc j := rfl
  rw [this]
  cases s.loc j <;> rfl

theorem getLoc_intLoc (s : CState C) (j : ℕ) : (s.getLoc j).2.intLoc = s.intLoc := by
  unfold CState.getLoc
  cases s.loc j <;> rfl

theorem merge_intIndex (s : CState C) (k : ℤ) (hk : L k = none) :
    (s.merge L).intIndex k = ((s.intIndex k).1, (s.intIndex k).2.merge L) := by
  unfold CState.intIndex
  have : (s.merge L).intLoc k = s.intLoc k := by simp [CState.merge, hk]
  rw [this]
  cases h : s.intLoc k with
  | some l => rfl
  | none =>
    have : ∀ z, (if z = k then some s.ints.length else (s.intLoc z).or (L z)) =
        (if z = k then some s.ints.length else s.intLoc z).or (L z) := by
      intro z; split_ifs <;> simp
    simp only [CState.merge, this]

theorem intIndex_intLoc (s : CState C) (k z : ℤ) (h : (s.intIndex k).2.intLoc z ≠ none) :
    s.intLoc z ≠ none ∨ z = k := by
  unfold CState.intIndex at h
  cases hk : s.intLoc k with
  | some l => rw [hk] at h; exact Or.inl h
  | none =>
    rw [hk] at h
    by_cases hz : z = k
    · exact Or.inr hz
    · simp only [hz, if_false] at h; exact Or.inl h

/-- What is to be shown about visiting node `i`. -/
def VisitMerge (L : ℤ → Option ℕ) (G : Graph C) (i : ℕ) : Prop :=
  ∀ s : CState C, ((∀ k, Expo G i k → L k = none) → visit G i (s.merge L) = (visit G i s).map (CState.merge L)) ∧
    ∀ s', visit G i s = some s' → ∀ k, s'.intLoc k ≠ none → s.intLoc k ≠ none ∨ Expo G i k

theorem ensure_merge {j : ℕ} (hj : VisitMerge L G j) (s : CState C) :
    ((∀ k, Expo G j k → L k = none) →
      ensure (visit G) j (s.merge L) = (ensure (visit G) j s).map (CState.merge L)) ∧
    ∀ s', ensure (visit G) j s = some s' → ∀ k, s'.intLoc k ≠ none → s.intLoc k ≠ none ∨ Expo G j k := by
  unfold ensure
  have : (s.merge L).loc j = s.loc j := rfl
  rw [this]
  cases s.loc j with
  | some l => exact ⟨fun _ => rfl, fun s' e k h => by cases e; exact Or.inl h⟩
  | none => exact hj s

theorem gather_merge (js : List ℕ) (hj : ∀ j ∈ js, VisitMerge L G j) : ∀ s : CState C,
    ((∀ j ∈ js, ∀ k, Expo G j k → L k = none) →
      gather (visit G) js (s.merge L) = (gather (visit G) js s).map (fun p => (p.1, p.2.merge L))) ∧
    ∀ p, gather (visit G) js s = some p → ∀ k, p.2.intLoc k ≠ none → s.intLoc k ≠ none ∨ ∃ j ∈ js, Expo G j k := by
  induction js with
  | nil => exact fun s => ⟨fun _ => rfl, fun p e k h => by cases e; exact Or.inl h⟩
  | cons j js ih =>
    intro s
    obtain ⟨e1, g1⟩ := ensure_merge (hj j (by simp)) s
    simp only [gather]
    refine ⟨fun hx => ?_, fun p hp k hk => ?_⟩
    · rw [e1 (hx j (by simp))]
      cases h1 : ensure (visit G) j s with
      | none => simp
      | some s1 =>
        have e3 := (ih (fun j' h' => hj j' (by simp [h'])) (s1.getLoc j).2).1 (fun j' h' => hx j' (by simp [h']))
        simp only [Option.map_some, Option.bind_eq_bind, Option.bind_some, merge_getLoc, e3]
        cases gather (visit G) js (s1.getLoc j).2 <;> simp
    · cases h1 : ensure (visit G) j s with
      | none => simp [h1] at hp
      | some s1 =>
        simp only [h1, Option.bind_eq_bind, Option.bind_some] at hp
        cases h3 : gather (visit G) js (s1.getLoc j).2 with
        | none => simp [h3] at hp
        | some q =>
          simp only [h3, Option.bind_some, Option.some.injEq] at hp
          subst hp
          rcases (ih (fun j' h' => hj j' (by simp [h'])) (s1.getLoc j).2).2 q h3 k hk with h | ⟨j', h', hE⟩
          · rw [getLoc_intLoc] at h
            rcases g1 s1 h1 k h with h | h
            · exact Or.inl h
            · exact Or.inr ⟨j, by simp, h⟩
          · exact Or.inr ⟨j', by simp [h'], hE⟩

theorem chain_merge (opT opF : BinOp) (r : List (Bool × ℕ)) : ∀ (prev : ℕ) (s : CState C),
    chain opT opF prev r (s.merge L) = ((chain opT opF prev r s).1, (chain opT opF prev r s).2.merge L) ∧
      (chain opT opF prev r s).2.intLoc = s.intLoc := by
  induction r with
  | nil => exact fun prev s => ⟨rfl, rfl⟩
  | cons a r ih =>
    intro prev s
    simp only [chain]
    exact ih s.next (s.emit (.bin (if a.1 then opT else opF) prev a.2 s.next)).bump

theorem sumCode_merge (r : List (Bool × ℕ)) (s : CState C) :
    sumCode r (s.merge L) = (sumCode r s).map (fun p => (p.1, p.2.merge L)) ∧
      ∀ p, sumCode r s = some p → p.2.intLoc = s.intLoc := by
  cases r with
  | nil => exact ⟨rfl, fun p e => by cases e⟩
  | cons a r =>
    obtain ⟨b, l⟩ := a
    cases b with
    | true =>
      obtain ⟨h1, h2⟩ := chain_merge (L := L) .add .sub r l s
      exact ⟨congrArg some h1, fun p e => by cases e; exact h2⟩
    | false =>
      obtain ⟨h1, h2⟩ := chain_merge (L := L) .add .sub r s.next (s.emit (.un .neg l s.next)).bump
      exact ⟨congrArg some h1, fun p e => by cases e; exact h2⟩

theorem multCode_merge (r : List (Bool × ℕ)) (s : CState C) :
    multCode r (s.merge L) = (multCode r s).map (fun p => (p.1, p.2.merge L)) ∧
      ∀ p, multCode r s = some p → p.2.intLoc = s.intLoc := by
  cases r with
  | nil => exact ⟨rfl, fun p e => by cases e⟩
  | cons a r =>
    obtain ⟨b, l⟩ := a
    cases b with
    | true =>
      obtain ⟨h1, h2⟩ := chain_merge (L := L) .mul .div r l s
      exact ⟨congrArg some h1, fun p e => by cases e; exact h2⟩
    | false =>
      obtain ⟨h1, h2⟩ := chain_merge (L := L) .mul .div r (s.addNum 1).next
        ((s.addNum 1).emit (.bin .div s.next l (s.addNum 1).next)).bump
      exact ⟨congrArg some h1, fun p e => by cases e; exact h2⟩

theorem Expo.of_operand {i j : ℕ} {k : ℤ} (hj : j ∈ (G.cell i).operands) (h : Expo G j k) : Expo G i k := by
  obtain ⟨m, b, hb, hc⟩ := h
  exact ⟨m, b, .step hj hb, hc⟩

theorem visit_merge (L : ℤ → Option ℕ) (G : Graph C) (i : ℕ) : VisitMerge L G i := by
  induction i using Nat.strong_induction_on with
  | _ i ih =>
  intro s
  have hop : ∀ j ∈ (G.cell i).operands, VisitMerge L G j := fun j hj => ih j (G.acyclic i j hj)
  have hup : ∀ j ∈ (G.cell i).operands, ∀ k, Expo G j k → Expo G i k := fun j hj k => Expo.of_operand hj
  simp only [visit_eq G i]
  unfold visitWith
  cases hc : G.cell i with
  | var => exact ⟨fun _ => rfl, fun s' e k h => by cases e; exact Or.inl h⟩
  | num c => exact ⟨fun _ => rfl, fun s' e k h => by cases e; exact Or.inl h⟩
  | other os => exact ⟨fun _ => rfl, fun s' e => by cases e⟩
  | fn n =>
    have hn : n ∈ (G.cell i).operands := by simp [hc, Cell.operands]
    obtain ⟨e1, g1⟩ := ensure_merge (hop n hn) s
    dsimp only
    refine ⟨fun hx => ?_, fun s' hs' k hk => ?_⟩
    · rw [e1 fun k h => hx k (hup n hn k h)]
      cases h1 : ensure (visit G) n s with
      | none => simp
      | some s1 =>
        simp only [Option.map_some, Option.bind_eq_bind, Option.bind_some, merge_getLoc]
        have : ((s1.getLoc n).2.merge L).loc i = (s1.getLoc n).2.loc i := rfl
        rw [this]
        cases (s1.getLoc n).2.loc i <;> rfl
    · cases h1 : ensure (visit G) n s with
      | none => simp [h1] at hs'
      | some s1 =>
        simp only [h1, Option.bind_eq_bind, Option.bind_some, Option.some.injEq] at hs'
        have : s'.intLoc = s1.intLoc := by
          rw [← hs', ← getLoc_intLoc s1 n]
          cases (s1.getLoc n).2.loc i <;> rfl
        rw [this] at hk
        exact (g1 s1 h1 k hk).imp_right (hup n hn k)
  | un f n =>
    have hn : n ∈ (G.cell i).operands := by simp [hc, Cell.operands]
    obtain ⟨e1, g1⟩ := ensure_merge (hop n hn) s
    dsimp only
    refine ⟨fun hx => ?_, fun s' hs' k hk => ?_⟩
    · rw [e1 fun k h => hx k (hup n hn k h)]
      cases h1 : ensure (visit G) n s with
      | none => simp
      | some s1 =>
        simp only [Option.map_some, Option.bind_eq_bind, Option.bind_some, merge_getLoc]
        rfl
    · cases h1 : ensure (visit G) n s with
      | none => simp [h1] at hs'
      | some s1 =>
        simp only [h1, Option.bind_eq_bind, Option.bind_some, Option.some.injEq] at hs'
        have : s'.intLoc = s1.intLoc := by rw [← hs', ← getLoc_intLoc s1 n]; rfl
        rw [this] at hk
        exact (g1 s1 h1 k hk).imp_right (hup n hn k)
  | ipow n e =>
    have hn : n ∈ (G.cell i).operands := by simp [hc, Cell.operands]
    have he : Expo G i e := ⟨i, n, .refl i, hc⟩
    obtain ⟨e1, g1⟩ := ensure_merge (hop n hn) s
    dsimp only
    refine ⟨fun hx => ?_, fun s' hs' k hk => ?_⟩
    · rw [e1 fun k h => hx k (hup n hn k h)]
      cases h1 : ensure (visit G) n s with
      | none => simp
      | some s1 =>
        simp only [Option.map_some, Option.bind_eq_bind, Option.bind_some, merge_getLoc,
          merge_intIndex _ e (hx e he)]
        rfl
    · cases h1 : ensure (visit G) n s with
      | none => simp [h1] at hs'
      | some s1 =>
        simp only [h1, Option.bind_eq_bind, Option.bind_some, Option.some.injEq] at hs'
        have : s'.intLoc = ((s1.getLoc n).2.intIndex e).2.intLoc := by rw [← hs']; rfl
        rw [this] at hk
        rcases intIndex_intLoc _ e k hk with h | rfl
        · rw [getLoc_intLoc] at h
          exact (g1 s1 h1 k h).imp_right (hup n hn k)
        · exact Or.inr he
  | pow b x =>
    have hb : b ∈ (G.cell i).operands := by simp [hc, Cell.operands]
    have hx' : x ∈ (G.cell i).operands := by simp [hc, Cell.operands]
    obtain ⟨e1, g1⟩ := ensure_merge (hop b hb) s
    dsimp only
    refine ⟨fun hx => ?_, fun s' hs' k hk => ?_⟩
    · rw [e1 fun k h => hx k (hup b hb k h)]
      cases h1 : ensure (visit G) b s with
      | none => simp
      | some s1 =>
        have e2 := (ensure_merge (hop x hx') s1).1 fun k h => hx k (hup x hx' k h)
        simp only [Option.map_some, Option.bind_eq_bind, Option.bind_some, e2]
        cases h2 : ensure (visit G) x s1 with
        | none => simp
        | some s2 =>
          simp only [Option.map_some, Option.bind_some, merge_getLoc]
          rfl
    · cases h1 : ensure (visit G) b s with
      | none => simp [h1] at hs'
      | some s1 =>
        cases h2 : ensure (visit G) x s1 with
        | none => simp [h1, h2] at hs'
        | some s2 =>
          simp only [h1, h2, Option.bind_eq_bind, Option.bind_some, Option.some.injEq] at hs'
          have : s'.intLoc = s2.intLoc := by
            rw [← hs', ← getLoc_intLoc s2 b, ← getLoc_intLoc (s2.getLoc b).2 x]; rfl
          rw [this] at hk
          rcases (ensure_merge (hop x hx') s1).2 s2 h2 k hk with h | h
          · exact (g1 s1 h1 k h).imp_right (hup b hb k)
          · exact Or.inr (hup x hx' k h)
  | sum ops =>
    have hops : (G.cell i).operands = ops.map Prod.snd := by rw [hc]; rfl
    obtain ⟨e1, g1⟩ := gather_merge (L := L) (ops.map Prod.snd) (fun j hj => hop j (hops ▸ hj)) s
    dsimp only
    refine ⟨fun hx => ?_, fun s' hs' k hk => ?_⟩
    · rw [e1 fun j hj k h => hx k (hup j (hops ▸ hj) k h)]
      cases h1 : gather (visit G) (ops.map Prod.snd) s with
      | none => simp
      | some p =>
        simp only [Option.map_some, Option.bind_eq_bind, Option.bind_some, (sumCode_merge _ _).1]
        cases sumCode ((ops.map Prod.fst).zip p.1) p.2 <;> rfl
    · cases h1 : gather (visit G) (ops.map Prod.snd) s with
      | none => simp [h1] at hs'
      | some p =>
        cases h2 : sumCode ((ops.map Prod.fst).zip p.1) p.2 with
        | none => simp [h1, h2] at hs'
        | some q =>
          simp only [h1, h2, Option.bind_eq_bind, Option.bind_some, Option.some.injEq] at hs'
          have : s'.intLoc = p.2.intLoc := by
            rw [← (sumCode_merge (L := L) _ _).2 q h2, ← hs']; rfl
          rw [this] at hk
          rcases g1 p h1 k hk with h | ⟨j, hj, h⟩
          · exact Or.inl h
          · exact Or.inr (hup j (hops ▸ hj) k h)
  | mult ops =>
    have hops : (G.cell i).operands = ops.map Prod.snd := by rw [hc]; rfl
    obtain ⟨e1, g1⟩ := gather_merge (L := L) (ops.map Prod.snd) (fun j hj => hop j (hops ▸ hj)) s
    dsimp only
    refine ⟨fun hx => ?_, fun s' hs' k hk => ?_⟩
    · rw [e1 fun j hj k h => hx k (hup j (hops ▸ hj) k h)]
      cases h1 : gather (visit G) (ops.map Prod.snd) s with
      | none => simp
      | some p =>
        simp only [Option.map_some, Option.bind_eq_bind, Option.bind_some, (multCode_merge _ _).1]
        cases multCode ((ops.map Prod.fst).zip p.1) p.2 <;> rfl
    · cases h1 : gather (visit G) (ops.map Prod.snd) s with
      | none => simp [h1] at hs'
      | some p =>
        cases h2 : multCode ((ops.map Prod.fst).zip p.1) p.2 with
        | none => simp [h1, h2] at hs'
        | some q =>
          simp only [h1, h2, Option.bind_eq_bind, Option.bind_some, Option.some.injEq] at hs'
          have : s'.intLoc = p.2.intLoc := by
            rw [← (multCode_merge (L := L) _ _).2 q h2, ← hs']; rfl
          rw [this] at hk
          rcases g1 p h1 k hk with h | ⟨j, hj, h⟩
          · exact Or.inl h
          · exact Or.inr (hup j (hops ▸ hj) k h)

theorem visitAll_merge (L : ℤ → Option ℕ) (G : Graph C) (tops : List ℕ) : ∀ s : CState C,
    ((∀ f ∈ tops, ∀ k, Expo G f k → L k = none) →
      visitAll G tops (s.merge L) = (visitAll G tops s).map (CState.merge L)) ∧
    ∀ s', visitAll G tops s = some s' → ∀ k, s'.intLoc k ≠ none → s.intLoc k ≠ none ∨ ∃ f ∈ tops, Expo G f k := by
  induction tops with
  | nil => exact fun s => ⟨fun _ => rfl, fun s' e k h => by cases e; exact Or.inl h⟩
  | cons f tops ih =>
    intro s
    obtain ⟨e1, g1⟩ := visit_merge L G f s
    simp only [visitAll, List.foldlM_cons]
    refine ⟨fun hx => ?_, fun s' hs' k hk => ?_⟩
    · rw [e1 (hx f (by simp))]
      cases h1 : visit G f s with
      | none => simp
      | some s1 => exact (ih s1).1 fun g hg => hx g (by simp [hg])
    · cases h1 : visit G f s with
      | none => simp [h1] at hs'
      | some s1 =>
        simp only [h1, Option.bind_eq_bind, Option.bind_some] at hs'
        rcases (ih s1).2 s' hs' k hk with h | ⟨g, hg, h⟩
        · rcases g1 s1 h1 k h with h | h
          · exact Or.inl h
          · exact Or.inr ⟨f, by simp, h⟩
        · exact Or.inr ⟨g, by simp [hg], h⟩

end B2.SLP
