import Verif.SLP.Reuse
import Verif.SLP.PropsCompile

/-!
# Property C165: a compiler can be used for one system after another
-/

namespace B2.SLP

variable {C V : Type} [One C]

/-- `k` is the exponent of an integer power in the system. -/
def SysExpo (p : Graph C × Sys) (k : ℤ) : Prop :=
  ∃ f ∈ p.2.functions ++ p.2.dx ++ (if p.2.path.isSome then p.2.dt else []), Expo p.1 f k

/-- C165 in full: compiling any systems one after the other with one compiler, each is compiled as with a new one, so
(`C15`) the programs compute the systems. -/
def C165_full : Prop :=
  ∀ (C V : Type) [One C] (A : Arith C V) (ps : List (Graph C × Sys)) (rs : List (Prog C)),
    (∀ p ∈ ps, p.2.Shape p.1 ∧ p.2.Ordered p.1) → compileAll (fun _ => none) ps = some rs →
    List.Forall₂ (fun p r => Correct p.1 A p.2 r) ps rs

theorem cleared_merge (L : ℤ → Option ℕ) : (CState.cleared L : CState C) = (CState.init : CState C).merge L := rfl

theorem merge_reserve (L : ℤ → Option ℕ) (ns : List ℕ) : ∀ s : CState C,
    (s.merge L).reserve ns = (s.reserve ns).merge L ∧ (s.reserve ns).intLoc = s.intLoc := by
  induction ns with
  | nil => exact fun s => ⟨rfl, rfl⟩
  | cons n ns ih => exact fun s => ih ((s.setLoc n s.next).bump)

/-- With none of the exponents of the system known from before, the program is that of a new compiler; only exponents of
the system become known. -/
theorem compileFrom_disjoint (L : ℤ → Option ℕ) (G : Graph C) (sys : Sys)
    (hL : ∀ k, SysExpo (G, sys) k → L k = none) :
    (compileFrom L G sys).map Prod.fst = compile G sys ∧
      ∀ r, compileFrom L G sys = some r → ∀ k, r.2 k ≠ none → L k ≠ none ∨ SysExpo (G, sys) k := by
  unfold compileFrom compile
  simp only [cleared_merge, (merge_reserve L _ _).1]
  have hif : ∀ s t : CState C, (if sys.path.isSome then s.merge L else t.merge L) =
      (if sys.path.isSome then s else t).merge L := by
    intro s t; split_ifs <;> rfl
  simp only [hif]
  set s4 := (((((CState.init : CState C).reserve sys.vars).reserve sys.path.toList).reserve sys.functions).reserve sys.dx) with hs4
  set s5 := (if sys.path.isSome then s4.reserve sys.dt else s4) with hs5
  have hi5 : s5.intLoc = fun _ => none := by
    have h4 : s4.intLoc = fun _ => none := by
      rw [hs4]
      simp only [(merge_reserve L _ _).2]
      rfl
    rw [hs5]; split_ifs
    · rw [(merge_reserve L _ _).2, h4]
    · exact h4
  obtain ⟨e6, -⟩ := visitAll_merge L G sys.functions s5
  rw [e6 fun f hf k h => hL k ⟨f, by simp [hf], h⟩]
  cases h6 : visitAll G sys.functions s5 with
  | none => simp
  | some s6 =>
    have g6 := (visitAll_merge L G sys.functions s5).2 s6 h6
    simp only [Option.map_some, Option.bind_eq_bind, Option.bind_some]
    obtain ⟨e7, -⟩ := visitAll_merge L G sys.dx s6
    rw [e7 fun f hf k h => hL k ⟨f, by simp [hf], h⟩]
    cases h7 : visitAll G sys.dx s6 with
    | none => simp
    | some s7 =>
      have g7 := (visitAll_merge L G sys.dx s6).2 s7 h7
      simp only [Option.map_some, Option.bind_some]
      obtain ⟨e8, -⟩ := visitAll_merge L G (if sys.path.isSome then sys.dt else []) s7
      rw [e8 fun f hf k h => hL k ⟨f, List.mem_append_right _ hf, h⟩]
      cases h8 : visitAll G (if sys.path.isSome then sys.dt else []) s7 with
      | none => simp
      | some s8 =>
        have g8 := (visitAll_merge L G (if sys.path.isSome then sys.dt else []) s7).2 s8 h8
        simp only [Option.map_some, Option.bind_some, Option.some.injEq]
        refine ⟨rfl, ?_⟩
        rintro r rfl k hk
        have hk' : s8.intLoc k ≠ none ∨ L k ≠ none := by
          by_contra hc
          rw [not_or, not_not, not_not] at hc
          exact hk (by simp [CState.merge, hc.1, hc.2])
        rcases hk' with h | h
        · rcases g8 k h with h | ⟨f, hf, h⟩
          · rcases g7 k h with h | ⟨f, hf, h⟩
            · rcases g6 k h with h | ⟨f, hf, h⟩
              · rw [hi5] at h; exact absurd rfl h
              · exact Or.inr ⟨f, by simp [hf], h⟩
            · exact Or.inr ⟨f, by simp [hf], h⟩
          · exact Or.inr ⟨f, List.mem_append_right _ hf, h⟩
        · exact Or.inl h

theorem compileAll_disjoint (ps : List (Graph C × Sys)) : ∀ L : ℤ → Option ℕ,
    (∀ p ∈ ps, ∀ k, SysExpo p k → L k = none) → ps.Pairwise (fun p q => ∀ k, SysExpo p k → ¬ SysExpo q k) →
    compileAll L ps = ps.mapM fun p => compile p.1 p.2 := by
  induction ps with
  | nil => exact fun L _ _ => rfl
  | cons p ps ih =>
    intro L hL hp
    rw [List.pairwise_cons] at hp
    obtain ⟨h1, h2⟩ := compileFrom_disjoint L p.1 p.2 (hL p (by simp))
    rw [compileAll, List.mapM_cons, ← h1]
    cases h : compileFrom L p.1 p.2 with
    | none => rfl
    | some r =>
      have : compileAll r.2 ps = ps.mapM fun p => compile p.1 p.2 := by
        refine ih r.2 (fun q hq k hk => ?_) hp.2
        by_contra hc
        rcases h2 r h k hc with h3 | h3
        · exact h3 (hL q (by simp [hq]) k hk)
        · exact hp.1 q hq k h3 hk
      simp [this]

/-- **C165, first system, and systems without common exponents.** A new compiler, used for systems of which no two have
an exponent of integer powers in common, gives the programs new compilers give; they compute the systems. In particular
the first program is always right. Missing: systems with common exponents. -/
theorem C165_partial (A : Arith C V) (ps : List (Graph C × Sys))
    (hp : ps.Pairwise (fun p q => ∀ k, SysExpo p k → ¬ SysExpo q k)) :
    (compileAll (fun _ => none) ps = ps.mapM fun p => compile p.1 p.2) ∧
    ∀ rs, (∀ p ∈ ps, p.2.Shape p.1 ∧ p.2.Ordered p.1) → compileAll (fun _ => none) ps = some rs →
      List.Forall₂ (fun p r => Correct p.1 A p.2 r) ps rs := by
  have h := compileAll_disjoint ps (fun _ => none) (fun _ _ _ _ => rfl) hp
  refine ⟨h, ?_⟩
  rw [h]
  clear h hp
  induction ps with
  | nil => intro rs _ hr; simp at hr; subst hr; exact .nil
  | cons p ps ih =>
    intro rs hs hr
    rw [List.mapM_cons] at hr
    cases h1 : compile p.1 p.2 with
    | none => simp [h1] at hr
    | some r =>
      cases h2 : ps.mapM fun p => compile p.1 p.2 with
      | none => simp [h1, h2] at hr
      | some rs' =>
        simp only [h1, h2, Option.bind_eq_bind, Option.bind_some, Option.pure_def, Option.some.injEq] at hr
        subst hr
        obtain ⟨a, b⟩ := hs p (by simp)
        exact .cons (C15_compile_correct_partial p.1 A p.2 r a b h1) (ih rs' (fun q hq => hs q (by simp [hq])) h2)

/-- The variable is node 0; the functions `x^2` (node 2) and `x^3` (node 4), with derivatives `2*x` (node 7) and `3*x^2`
(node 10). -/
def reGraph : Graph ℤ where
  cell
    | 1 => .ipow 0 2
    | 2 => .fn 1
    | 3 => .ipow 0 3
    | 4 => .fn 3
    | 5 => .num 2
    | 6 => .mult [(true, 5), (true, 0)]
    | 7 => .fn 6
    | 8 => .num 3
    | 9 => .mult [(true, 8), (true, 1)]
    | 10 => .fn 9
    | _ => .var
  acyclic := by
    intro i j hj
    match i with
    | 1 | 2 | 3 | 4 | 7 | 10 => simp [Cell.operands] at hj; omega
    | 6 | 9 => simp [Cell.operands] at hj; rcases hj with rfl | rfl <;> omega
    | 0 | 5 | 8 | _ + 11 => simp [Cell.operands] at hj

/-- The system `x^2`. -/
def sysA : Sys := ⟨[0], none, [2], [7], []⟩

/-- The system `x^3, x^2`. -/
def sysB : Sys := ⟨[0], none, [4, 2], [10, 7], []⟩

theorem reGraph_operand (i k : ℕ) (h : k ∈ (reGraph.cell i).operands) : k ∈ [0, 1, 3, 5, 6, 8, 9] := by
  match i with
  | 0 => simp [reGraph, Cell.operands] at h
  | 1 => simp [reGraph, Cell.operands] at h; simp [h]
  | 2 => simp [reGraph, Cell.operands] at h; simp [h]
  | 3 => simp [reGraph, Cell.operands] at h; simp [h]
  | 4 => simp [reGraph, Cell.operands] at h; simp [h]
  | 5 => simp [reGraph, Cell.operands] at h
  | 6 => simp [reGraph, Cell.operands] at h; rcases h with h | h <;> simp [h]
  | 7 => simp [reGraph, Cell.operands] at h; simp [h]
  | 8 => simp [reGraph, Cell.operands] at h
  | 9 => simp [reGraph, Cell.operands] at h; rcases h with h | h <;> simp [h]
  | 10 => simp [reGraph, Cell.operands] at h; simp [h]
  | _ + 11 => simp [reGraph, Cell.operands] at h

theorem reGraph_below {i j : ℕ} (h : Below reGraph i j) : j = i ∨ j ∈ [0, 1, 3, 5, 6, 8, 9] := by
  induction h with
  | refl => exact Or.inl rfl
  | step hm _ ih =>
    rcases ih with rfl | h
    · exact Or.inr (reGraph_operand _ _ hm)
    · exact Or.inr h

theorem reGraph_good (fs dx : List ℕ) (hf : ∀ f ∈ fs ++ dx, f ∈ [2, 4, 7, 10]) (hn : (0 :: (fs ++ dx)).Nodup)
    (hd : dx.Nodup) : (⟨[0], none, fs, dx, []⟩ : Sys).Shape reGraph ∧ (⟨[0], none, fs, dx, []⟩ : Sys).Ordered reGraph := by
  have ht : (⟨[0], none, fs, dx, []⟩ : Sys).tops = fs ++ dx := by simp [Sys.tops]
  refine ⟨⟨?_, ?_, ?_, ?_⟩, ⟨?_, ?_, ?_⟩⟩
  · intro v hv
    simp [Sys.inputs] at hv
    subst hv; rfl
  · intro f h
    rw [ht] at h
    have := hf f h
    simp at this
    rcases this with rfl | rfl | rfl | rfl <;> exact ⟨_, rfl⟩
  · simp [Sys.inputs]
  · simpa using hd
  · rw [ht]; simpa [Sys.inputs] using hn
  · intro f h j hb hv
    rw [ht] at h
    have h1 := hf f h
    simp only [Sys.inputs, Option.toList_none, List.append_nil, List.mem_singleton]
    rcases reGraph_below hb with rfl | h2
    · simp at h1
      rcases h1 with rfl | rfl | rfl | rfl <;> exact absurd hv (by simp [reGraph])
    · simp at h2
      rcases h2 with rfl | rfl | rfl | rfl | rfl | rfl | rfl <;> first | rfl | exact absurd hv (by simp [reGraph])
  · intro pre f post e j hb hj
    rw [ht] at e
    have hjm : j ∈ fs ++ dx := by rw [e]; simp [hj]
    rcases reGraph_below hb with rfl | h2
    · have hn' := (List.nodup_cons.mp hn).2
      rw [e] at hn'
      exact (List.nodup_cons.mp (List.nodup_append.mp hn').2.1).1 hj
    · have h1 := hf j hjm
      simp at h1 h2
      omega

theorem sysA_good : sysA.Shape reGraph ∧ sysA.Ordered reGraph :=
  reGraph_good _ _ (by decide) (by decide) (by decide)

theorem sysB_good : sysB.Shape reGraph ∧ sysB.Ordered reGraph :=
  reGraph_good _ _ (by decide) (by decide) (by decide)

/-- Value of the `i`-th function at `x = 2` by the `n`-th of the programs compiled one after the other. -/
def atTwo (ps : List (Graph ℤ × Sys)) (n i : ℕ) : Option ℤ := do
  let rs ← compileAll (fun _ => none) ps
  let r ← rs[n]?
  let p ← ps[n]?
  let m ← runOn intArith r p.2 (fun _ => 2) (fun _ => 0)
  some (r.func m i)

/-- **C165, refuted.** A compiler used for `x^2` and then for `x^3, x^2` compiles the second system without an error, and
its program gives `8` for `x^2` at `x = 2`: the exponent `2` is still known at place 0 of the integer table, which for the
new program holds `3`. With a new compiler the value is `4`. -/
theorem C165_stale : atTwo [(reGraph, sysA), (reGraph, sysB)] 1 1 = some 8 ∧
    atTwo [(reGraph, sysB)] 0 1 = some 4 ∧ value reGraph intArith (fun _ => 2) 2 = 4 :=
  ⟨by decide +kernel, by decide +kernel, by decide +kernel⟩

/-- Compiling the same system twice: the second program has an empty integer table, from which it reads. -/
theorem C165_same_twice : (compileAll (fun _ => none) [(reGraph, sysA), (reGraph, sysA)]).map
    (fun rs => rs.map fun r => (r.ints, r.flat)) =
      some [([2], [65536, 0, 0, 3, 32768, 3, 1, 4, 4, 0, 5, 32768, 5, 2]),
        ([], [65536, 0, 0, 3, 32768, 3, 1, 4, 4, 0, 5, 32768, 5, 2])] := by
  decide +kernel

theorem C165_refuted : ¬ C165_full := by
  intro h
  have h8 := C165_stale.1
  cases hr : compileAll (fun _ => none) [(reGraph, sysA), (reGraph, sysB)] with
  | none => simp [atTwo, hr] at h8
  | some rs =>
    have hc := h ℤ ℤ intArith _ rs (by
      intro p hp
      simp at hp
      rcases hp with rfl | rfl
      · exact sysA_good
      · exact sysB_good) hr
    cases hc with
    | @cons _ r1 _ l1 h1 hc =>
      cases hc with
      | @cons _ r2 _ l2 h2 hc =>
        obtain ⟨m, hm, hf, -⟩ := h2.outputs (fun _ => 2) (fun _ => 0)
        have := hf 1 (by decide)
        simp [atTwo, hr, hm, this] at h8
        rw [show sysB.functions[1] = 2 from rfl, C165_stale.2.2] at h8
        exact absurd h8 (by decide)

/-- `x^2` (node 2) with derivative `2*x` (node 5). -/
def squareGraph : Graph ℤ where
  cell
    | 1 => .ipow 0 2
    | 2 => .fn 1
    | 3 => .num 2
    | 4 => .mult [(true, 3), (true, 0)]
    | 5 => .fn 4
    | _ => .var
  acyclic := by
    intro i j hj
    match i with
    | 1 | 2 | 5 => simp [Cell.operands] at hj; omega
    | 4 => simp [Cell.operands] at hj; rcases hj with rfl | rfl <;> omega
    | 0 | 3 | _ + 6 => simp [Cell.operands] at hj

/-- `x^4` (node 2) with derivative `4*x^3` (node 6). -/
def fourthGraph : Graph ℤ where
  cell
    | 1 => .ipow 0 4
    | 2 => .fn 1
    | 3 => .ipow 0 3
    | 4 => .num 4
    | 5 => .mult [(true, 4), (true, 3)]
    | 6 => .fn 5
    | _ => .var
  acyclic := by
    intro i j hj
    match i with
    | 1 | 2 | 3 | 6 => simp [Cell.operands] at hj; omega
    | 5 => simp [Cell.operands] at hj; rcases hj with rfl | rfl <;> omega
    | 0 | 4 | _ + 7 => simp [Cell.operands] at hj

/-- A case meeting the hypotheses of `C165_partial`: `x^2` with `2*x`, then `x^4` with `4*x^3`; both compile. -/
example : ([(squareGraph, ⟨[0], none, [2], [5], []⟩), (fourthGraph, ⟨[0], none, [2], [6], []⟩)] :
      List (Graph ℤ × Sys)).Pairwise (fun p q => ∀ k, SysExpo p k → ¬ SysExpo q k) ∧
    (compileAll (fun _ => none) [(squareGraph, ⟨[0], none, [2], [5], []⟩),
      (fourthGraph, ⟨[0], none, [2], [6], []⟩)]).isSome = true := by
  have h1 : ∀ j b k, squareGraph.cell j = .ipow b k → k = 2 := by
    intro j b k h
    match j with
    | 1 => simp [squareGraph] at h; exact h.2.symm
    | 0 | 2 | 3 | 4 | 5 | _ + 6 => simp [squareGraph] at h
  have h2 : ∀ j b k, fourthGraph.cell j = .ipow b k → k ≠ 2 := by
    intro j b k h
    match j with
    | 1 | 3 => simp [fourthGraph] at h; omega
    | 0 | 2 | 4 | 5 | 6 | _ + 7 => simp [fourthGraph] at h
  refine ⟨?_, by decide +kernel⟩
  refine List.Pairwise.cons ?_ (List.pairwise_singleton _ _)
  rintro q hq k ⟨f, -, j, b, -, h⟩ ⟨f', -, j', b', -, h'⟩
  simp only [List.mem_singleton] at hq
  subst hq
  exact h2 _ _ _ h' (h1 _ _ _ h)

end B2.SLP
