import Verif.SLP.Implicit

/-!
# C193: implicit parameters take the values they are given
-/

namespace B2.SLP

variable {C V : Type} [One C]

/-! ### Specification -/

/-- The parameters of a system: variables which are not among its inputs, each once. -/
structure Params (G : Graph C) (sys : Sys) (ps : List ℕ) : Prop where
  var : ∀ q ∈ ps, G.cell q = .var
  notInput : ∀ q ∈ ps, q ∉ sys.inputs
  nodup : ps.Nodup

/-- The system and its parameters are well formed: only variables of the system and parameters occur, functions are listed once and in
the order of their use. -/
structure ParamSys (G : Graph C) (sys : Sys) (ps : List ℕ) : Prop where
  shape : sys.Shape G
  inputs : 0 < sys.inputs.length
  nodup : (sys.inputs ++ sys.tops).Nodup
  ordered : ∀ pre f post, sys.tops = pre ++ f :: post → ∀ j, Below G f j → j ∉ post
  closed : ∀ f ∈ sys.tops, ∀ j, Below G f j → G.cell j = .var → j ∈ sys.inputs ∨ j ∈ ps
  known : ∀ f ∈ sys.tops, ∀ j, Below G f j → ∀ k, G.cell j ≠ .other k
  params : Params G sys ps

/-- **C193.** After setting the implicit parameters of a system and evaluating it (with the default method, the straight line program),
the function values are those of the expressions with the given values of the parameters. -/
def C193_full : Prop :=
  ∀ (C V : Type) (_ : One C) (G : Graph C) (A : Arith C V) (sys : Sys) (ps : List ℕ) (p : Prog C), ParamSys G sys ps →
    compile G sys = some p → ∀ (x x' : ℕ → V) (vs : List V), setImplicit ps vs x = some x' →
      ∀ (old m : Mem V), runOn A p sys x' old = some m →
        ∀ i (h : i < sys.functions.length), p.func m i = value G A x' sys.functions[i]

/-! ### C193 -/

theorem assign_other (ps : List ℕ) (vs : List V) (x : ℕ → V) (j : ℕ) (hj : j ∉ ps) : assignParams ps vs x j = x j := by
  induction ps generalizing vs x with
  | nil => rfl
  | cons p ps ih =>
    cases vs with
    | nil => rfl
    | cons v vs =>
      rw [assignParams, ih _ _ (fun h => hj (by simp [h])), Function.update_of_ne]
      rintro rfl
      exact hj (by simp)

theorem assign_at (ps : List ℕ) (vs : List V) (x : ℕ → V) (hn : ps.Nodup) (k : ℕ) (h1 : k < ps.length) (h2 : k < vs.length) :
    assignParams ps vs x ps[k] = vs[k] := by
  induction ps generalizing vs x k with
  | nil => simp at h1
  | cons p ps ih =>
    cases vs with
    | nil => simp at h2
    | cons v vs =>
      rw [List.nodup_cons] at hn
      rw [assignParams]
      cases k with
      | zero =>
        rw [List.getElem_cons_zero, List.getElem_cons_zero, assign_other _ _ _ _ hn.1, Function.update_self]
      | succ k =>
        simp only [List.getElem_cons_succ]
        exact ih vs _ hn.2 k (by simpa using h1) (by simpa using h2)

/-- The nodes of the parameters get their values, no other node changes, and a wrong number of values is refused. -/
theorem C193_nodes (ps : List ℕ) (vs : List V) (x : ℕ → V) (hn : ps.Nodup) :
    (setImplicit ps vs x = none ↔ vs.length ≠ ps.length) ∧
    ∀ x', setImplicit ps vs x = some x' →
      (∀ k (h1 : k < ps.length) (h2 : k < vs.length), x' ps[k] = vs[k]) ∧ ∀ j, j ∉ ps → x' j = x j := by
  by_cases hl : vs.length ≠ ps.length
  · have e : setImplicit ps vs x = none := by rw [setImplicit, if_pos hl]
    exact ⟨⟨fun _ => hl, fun _ => e⟩, fun x' h => by rw [e] at h; cases h⟩
  · have e : setImplicit ps vs x = some (assignParams ps vs x) := by rw [setImplicit, if_neg hl]
    refine ⟨⟨fun h => (by rw [e] at h; cases h), fun h => absurd h hl⟩, fun x' h => ?_⟩
    rw [e] at h
    cases h
    exact ⟨fun k h1 h2 => assign_at ps vs x hn k h1 h2, fun j hj => assign_other ps vs x j hj⟩

/-- What a compiled system computes after its parameters have been set: every parameter is read as the first variable. -/
theorem C193_compiled (G : Graph C) (A : Arith C V) (sys : Sys) (ps : List ℕ) (p : Prog C) (hs : ParamSys G sys ps)
    (hp : compile G sys = some p) (x x' : ℕ → V) (vs : List V) (hx : setImplicit ps vs x = some x') (old : Mem V) :
    ∃ m, runOn A p sys x' old = some m ∧
      ∀ i (h : i < sys.functions.length), p.func m i = value G A (readAs sys hs.inputs x) sys.functions[i] := by
  obtain ⟨m, hm, h1, -⟩ := C15_foreign G A sys p hs.shape hs.inputs hs.nodup hs.ordered hp x' old
  refine ⟨m, hm, fun i h => ?_⟩
  have hsame : ∀ j ∈ sys.inputs, x' j = x j := fun j hj =>
    ((C193_nodes ps vs x hs.params.nodup).2 x' hx).2 j fun hjp => hs.params.notInput j hjp hj
  have e : readAs sys hs.inputs x' = readAs sys hs.inputs x := by
    funext j
    simp only [readAs]
    by_cases hj : j ∈ sys.inputs
    · rw [if_pos hj, if_pos hj, hsame j hj]
    · rw [if_neg hj, if_neg hj, hsame _ (List.getElem_mem _)]
  rw [h1 i h, e]

/-- Values of the leaves below a node decide its value. -/
theorem value_leaves (G : Graph C) (A : Arith C V) (x y : ℕ → V) (i : ℕ)
    (hv : ∀ j, Below G i j → G.cell j = .var → x j = y j) (ho : ∀ j, Below G i j → ∀ k, G.cell j ≠ .other k) :
    value G A x i = value G A y i := by
  induction i using Nat.strong_induction_on with
  | _ i ih =>
    rw [value_eq G A x, value_eq G A y]
    rw [valueWith_congr G A x (w := value G A y) i fun j hj =>
      ih j (G.acyclic i j hj) (fun k hk => hv k (.step hj hk)) (fun k hk => ho k (.step hj hk))]
    have h1 := hv i (.refl i)
    have h2 := ho i (.refl i)
    unfold valueWith
    cases hc : G.cell i with
    | var => exact h1 hc
    | other k => exact absurd hc (h2 k)
    | _ => rfl

/-- **C193 for the nodes and for some compiled functions.** A parameter node evaluates to its new value; two settings of the parameters
give the same compiled values; a compiled function in which every parameter has the value of the first variable (in particular one
without parameters) is correct.  Missing from `C193_full`: the other functions. -/
theorem C193_partial (G : Graph C) (A : Arith C V) (sys : Sys) (ps : List ℕ) (p : Prog C) (hs : ParamSys G sys ps)
    (hp : compile G sys = some p) (x x' x'' : ℕ → V) (vs ws : List V) (hx : setImplicit ps vs x = some x')
    (hx' : setImplicit ps ws x = some x'') (old : Mem V) :
    (∀ k (h1 : k < ps.length) (h2 : k < vs.length), value G A x' ps[k] = vs[k]) ∧
    ∃ m m', runOn A p sys x' old = some m ∧ runOn A p sys x'' old = some m' ∧
      ∀ i (h : i < sys.functions.length), p.func m i = p.func m' i ∧
        ((∀ j ∈ ps, Below G sys.functions[i] j → ∀ v, sys.inputs[0]? = some v → x' j = x' v) →
          p.func m i = value G A x' sys.functions[i]) := by
  obtain ⟨m, h1, h2⟩ := C193_compiled G A sys ps p hs hp x x' vs hx old
  obtain ⟨m', h3, h4⟩ := C193_compiled G A sys ps p hs hp x x'' ws hx' old
  have hN := (C193_nodes ps vs x hs.params.nodup).2 x' hx
  refine ⟨fun k hk hk' => ?_, m, m', h1, h3, fun i h => ⟨by rw [h2 i h, h4 i h], fun hv => ?_⟩⟩
  · rw [value_eq, valueWith, hs.params.var _ (List.getElem_mem hk)]
    exact hN.1 k hk hk'
  · have htop : sys.functions[i] ∈ sys.tops := by
      simp only [Sys.tops, List.mem_append]
      simp
    have hsame : ∀ j ∈ sys.inputs, x' j = x j := fun j hj => hN.2 j fun hjp => hs.params.notInput j hjp hj
    rw [h2 i h]
    refine value_leaves G A _ _ _ (fun j hj hc => ?_) (hs.known _ htop)
    rcases hs.closed _ htop j hj hc with hi | hi
    · rw [readAs, if_pos hi, hsame j hi]
    · rw [readAs, if_neg (hs.params.notInput j hi), hv j hi hj _ (List.getElem?_eq_getElem hs.inputs),
        hsame _ (List.getElem_mem _)]

/-- The system with the variable `x`, the implicit parameter `y` and the function `y`. -/
theorem exParams : ParamSys exGraph ⟨[0], none, [7], [8], []⟩ [6] := by
  have hb7 : ∀ j, Below exGraph 7 j → j = 7 ∨ j = 6 := by
    intro j hj
    cases hj with
    | refl => exact .inl rfl
    | step h hk =>
      simp only [exGraph, Cell.operands, List.mem_singleton] at h
      subst h
      cases hk with
      | refl => exact .inr rfl
      | step h _ => simp [exGraph, Cell.operands] at h
  have hb8 : ∀ j, Below exGraph 8 j → j = 8 ∨ j = 3 := by
    intro j hj
    cases hj with
    | refl => exact .inl rfl
    | step h hk =>
      simp only [exGraph, Cell.operands, List.mem_singleton] at h
      subst h
      cases hk with
      | refl => exact .inr rfl
      | step h _ => simp [exGraph, Cell.operands] at h
  have ht : (⟨[0], none, [7], [8], []⟩ : Sys).tops = [7, 8] := rfl
  refine ⟨exGraph_shape _ (by simp [Sys.inputs]) (by simp [Sys.tops]) (by decide) (by decide), by simp [Sys.inputs], by decide,
    ?_, ?_, ?_, ⟨?_, ?_, by decide⟩⟩
  · intro pre f post he j hj hm
    rw [ht] at he
    match pre, he with
    | [], he =>
      simp only [List.nil_append, List.cons.injEq] at he
      obtain ⟨rfl, rfl⟩ := he
      rcases hb7 j hj with rfl | rfl <;> simp at hm
    | [_], he =>
      simp only [List.cons_append, List.nil_append, List.cons.injEq] at he
      obtain ⟨-, -, rfl⟩ := he
      simp at hm
    | _ :: _ :: r, he =>
      have := congrArg List.length he
      simp at this
  · intro f hf j hj hc
    rw [ht] at hf
    rcases List.mem_cons.1 hf with rfl | hf
    · rcases hb7 j hj with rfl | rfl
      · cases hc
      · right; simp
    · rw [List.mem_singleton] at hf
      subst hf
      rcases hb8 j hj with rfl | rfl <;> cases hc
  · intro f hf j hj k hc
    rw [ht] at hf
    rcases List.mem_cons.1 hf with rfl | hf
    · rcases hb7 j hj with rfl | rfl <;> cases hc
    · rw [List.mem_singleton] at hf
      subst hf
      rcases hb8 j hj with rfl | rfl <;> cases hc
  · intro q hq
    rw [List.mem_singleton] at hq
    subst hq
    rfl
  · intro q hq
    rw [List.mem_singleton] at hq
    subst hq
    simp [Sys.inputs]

/-- `f = y` with the implicit parameter `y` set to `7` and the variable `x` at `5`: the compiled system computes `5`. -/
theorem C193_refuted : ¬ C193_full := by
  intro H
  obtain ⟨p, -, -, -, -, -, -, hc, -⟩ := C15_foreign_variable_refuted
  have hset : setImplicit [6] [(7 : ℤ)] (fun _ => 5) = some (assignParams [6] [7] fun _ => 5) := by
    rw [setImplicit, if_neg (by simp)]
  obtain ⟨m, hm, h1⟩ := C193_compiled exGraph intArith _ [6] p exParams hc _ _ _ hset fun _ => 0
  have h2 := H ℤ ℤ _ exGraph intArith _ [6] p exParams hc _ _ _ hset _ _ hm 0 (by simp)
  rw [h1 0 (by simp), show ((⟨[0], none, [7], [8], []⟩ : Sys).functions[0]) = 7 from rfl, (exGraph_values _ _).2.2,
    (exGraph_values _ _).2.2] at h2
  simp [readAs, Sys.inputs, assignParams] at h2

/-- The hypotheses of `C193_partial` are met, with two different settings of the parameter. -/
example : ∃ p, compile exGraph ⟨[0], none, [7], [8], []⟩ = some p ∧ ∃ m m',
    runOn intArith p ⟨[0], none, [7], [8], []⟩ (assignParams [6] [7] fun _ => 5) (fun _ => 0) = some m ∧
    runOn intArith p ⟨[0], none, [7], [8], []⟩ (assignParams [6] [9] fun _ => 5) (fun _ => 0) = some m' ∧
    p.func m 0 = p.func m' 0 := by
  obtain ⟨p, -, -, -, -, -, -, hc, -⟩ := C15_foreign_variable_refuted
  obtain ⟨-, m, m', h1, h2, h3⟩ := C193_partial exGraph intArith _ [6] p exParams hc (fun _ => 5) _ _ [7] [9]
    (by rw [setImplicit, if_neg (by simp)]) (by rw [setImplicit, if_neg (by simp)]) fun _ => 0
  exact ⟨p, hc, m, m', h1, h2, (h3 0 (by simp)).1⟩

/-- Two parameters set to two values; one value too many is refused. -/
example : (setImplicit [3, 5] [(10 : ℤ), 20] fun _ => 0).map (fun x => (x 3, x 4, x 5)) = some (10, 0, 20) ∧
    (setImplicit [3, 5] [(10 : ℤ), 20, 30] fun _ => 0).isNone := by decide

end B2.SLP
