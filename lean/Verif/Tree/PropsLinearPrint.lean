/-
C183: the printed form of a linear product.  C184: homogeneity of a linear product in one variable.
-/
import Verif.Tree.LinearPrint
import Verif.Tree.PropsLinear2

namespace B2

open Finset

/-! ### C183 -/

/-- Specification: where a reader of a product of sums in parentheses is: before a parenthesis, before a number or variable
inside, after one, after a parenthesis. -/
inductive LPos where
  | out
  | want
  | have_
  | done
deriving DecidableEq

/-- The reader: position, product of the factors so far, sum of the terms so far, the present term. -/
structure LRead where
  pos : LPos
  prod : ℂ
  sum : ℂ
  term : ℂ

/-- Specification: reading one piece, with the usual meaning of `(`, `)`, `*` and `+`; `env` gives the values of the
variables, `d` those of the differentials.  `none`: not a product of sums. -/
noncomputable def lread (env d : Env) (s : LRead) (t : LTok) : Option LRead :=
  match s.pos, t with
  | .out, .lpar => some ⟨.want, s.prod, 0, 1⟩
  | .want, .num c => some ⟨.have_, s.prod, s.sum, s.term * c⟩
  | .want, .var v => some ⟨.have_, s.prod, s.sum, s.term * env v⟩
  | .want, .dvar v => some ⟨.have_, s.prod, s.sum, s.term * d v⟩
  | .have_, .star => some ⟨.want, s.prod, s.sum, s.term⟩
  | .have_, .plus => some ⟨.want, s.prod, s.sum + s.term, 1⟩
  | .have_, .rpar => some ⟨.done, s.prod * (s.sum + s.term), 0, 1⟩
  | .done, .star => some ⟨.out, s.prod, 0, 1⟩
  | _, _ => none

/-- Reading a text. -/
noncomputable def lreads (env d : Env) : LRead → List LTok → Option LRead
  | s, [] => some s
  | s, t :: ts => (lread env d s t).bind fun s' => lreads env d s' ts

/-- Specification: the value a text denotes; the empty text is the empty product. -/
noncomputable def denotes (env d : Env) (ts : List LTok) : Option ℂ :=
  match ts with
  | [] => some 1
  | ts => (lreads env d ⟨.out, 1, 0, 1⟩ ts).bind fun s => if s.pos = .done then some s.prod else none

/-- Specification: the values with the variable `h` set to one. -/
def atOne (h : Var) (env : Env) : Env := fun v => if v = h then 1 else env v

/-- The full claim: what is printed denotes the value of the product. -/
def C183_full : Prop := ∀ (p : LinProd) (homogenized : Bool) (env d : Env), p.WF → p.FlagOK homogenized → p.vars ≠ [] →
  ∃ ts, p.print = some ts ∧ denotes env d ts = some (p.eval env)

/-- The terms from the variables `vs` on, whose columns begin with `j`. -/
noncomputable def restSum (p : LinProd) (env : Env) (i : ℕ) : List Var → ℕ → ℂ
  | [], _ => 0
  | v :: vs, j => p.coeff i j * env v + restSum p env i vs (j + 1)

theorem restSum_eq (p : LinProd) (env : Env) (i : ℕ) (vs : List Var) (k : ℕ) :
    restSum p env i vs k = ∑ j : Fin vs.length, p.coeff i (k + j) * env vs[j] := by
  induction vs generalizing k with
  | nil => simp [restSum]
  | cons v vs ih =>
    rw [restSum, ih]
    refine Eq.trans ?_ (Fin.sum_univ_succ (n := vs.length) fun j => p.coeff i (k + j) * env (v :: vs)[j]).symm
    congr 1
    refine sum_congr rfl fun j _ => ?_
    have : k + 1 + (j : ℕ) = k + ((j.succ : Fin (vs.length + 1)) : ℕ) := by simp; omega
    rw [this]
    rfl

theorem read_rest (p : LinProd) (env d : Env) (i : ℕ) (vs : List Var) (j : ℕ) (P s t : ℂ) (k : List LTok) :
    ∃ s' t', s' + t' = s + t + restSum p env i vs j ∧
      lreads env d ⟨.have_, P, s, t⟩ (p.printRest i vs j ++ k) = lreads env d ⟨.have_, P, s', t'⟩ k := by
  induction vs generalizing j s t with
  | nil => exact ⟨s, t, by simp [restSum], rfl⟩
  | cons v vs ih =>
    obtain ⟨s', t', h1, h2⟩ := ih (j + 1) (s + t) (1 * p.coeff i j * env v)
    refine ⟨s', t', ?_, h2⟩
    rw [h1, restSum]
    ring

/-- The value of a factor as it is printed. -/
noncomputable def shown (p : LinProd) (env : Env) (i : ℕ) : ℂ :=
  ∑ j : Fin p.vars.length, p.coeff i j * env (p.vars[j]) + if p.isHomVars then 0 else p.coeff i p.vars.length

theorem read_factor (p : LinProd) (env d : Env) (v : Var) (vs : List Var) (hv : p.vars = v :: vs) (i : ℕ) (P : ℂ)
    (k : List LTok) : lreads env d ⟨.out, P, 0, 1⟩ (p.printFactor v vs i ++ k) =
      lreads env d ⟨if i = p.numFactors - 1 then .done else .out, P * shown p env i, 0, 1⟩ k := by
  have hs : shown p env i = p.coeff i 0 * env v + restSum p env i vs 1 +
      if p.isHomVars then 0 else p.coeff i (vs.length + 1) := by
    unfold shown
    have h0 : ∑ j : Fin p.vars.length, p.coeff i j * env (p.vars[j]) = restSum p env i p.vars 0 := by
      rw [restSum_eq]
      simp
    rw [h0, hv, restSum]
    simp
  unfold LinProd.printFactor
  rw [List.cons_append, List.cons_append, List.cons_append, List.cons_append, List.append_assoc]
  obtain ⟨s', t', h1, h2⟩ := read_rest p env d i vs 1 P 0 (1 * p.coeff i 0 * env v)
    ((if p.isHomVars then [] else [.plus, .num (p.coeff i (vs.length + 1))]) ++
      (if i = p.numFactors - 1 then [.rpar] else [.rpar, .star]) ++ k)
  show lreads env d ⟨.have_, P, 0, 1 * p.coeff i 0 * env v⟩ _ = _
  rw [h2, hs]
  by_cases hh : p.isHomVars = true
  · rw [if_pos hh, if_pos hh]
    by_cases hl : i = p.numFactors - 1
    · rw [if_pos hl, if_pos hl]
      show lreads env d ⟨.done, P * (s' + t'), 0, 1⟩ k = _
      rw [h1]
      congr 2
      ring
    · rw [if_neg hl, if_neg hl]
      show lreads env d ⟨.out, P * (s' + t'), 0, 1⟩ k = _
      rw [h1]
      congr 2
      ring
  · rw [if_neg hh, if_neg hh]
    by_cases hl : i = p.numFactors - 1
    · rw [if_pos hl, if_pos hl]
      show lreads env d ⟨.done, P * (s' + t' + 1 * p.coeff i (vs.length + 1)), 0, 1⟩ k = _
      rw [h1]
      congr 2
      ring
    · rw [if_neg hl, if_neg hl]
      show lreads env d ⟨.out, P * (s' + t' + 1 * p.coeff i (vs.length + 1)), 0, 1⟩ k = _
      rw [h1]
      congr 2
      ring

theorem read_factors (p : LinProd) (env d : Env) (v : Var) (vs : List Var) (hv : p.vars = v :: vs) (k i : ℕ)
    (hk : i + (k + 1) = p.numFactors) (P : ℂ) :
    lreads env d ⟨.out, P, 0, 1⟩ ((List.range' i (k + 1)).flatMap (p.printFactor v vs)) =
      some ⟨.done, P * ∏ j ∈ range (k + 1), shown p env (i + j), 0, 1⟩ := by
  induction k generalizing i P with
  | zero =>
    have hl : i = p.numFactors - 1 := by omega
    have := read_factor p env d v vs hv i P []
    rw [if_pos hl] at this
    simpa [List.range'_succ, lreads] using this
  | succ k ih =>
    have hl : ¬ i = p.numFactors - 1 := by omega
    have := read_factor p env d v vs hv i P ((List.range' (i + 1) (k + 1)).flatMap (p.printFactor v vs))
    rw [if_neg hl, ih (i + 1) (by omega)] at this
    rw [List.range'_succ, List.flatMap_cons, this, prod_range_succ' _ (k + 1)]
    congr 2
    have e : ∀ j, i + 1 + j = i + (j + 1) := by intro j; omega
    simp only [e, add_zero]
    ring

theorem print_shown (p : LinProd) (env d : Env) (hne : p.vars ≠ []) :
    ∃ ts, p.print = some ts ∧ denotes env d ts = some (∏ i : Fin p.numFactors, shown p env i) := by
  cases hv : p.vars with
  | nil => exact absurd hv hne
  | cons v vs =>
    refine ⟨(List.range p.numFactors).flatMap (p.printFactor v vs), by unfold LinProd.print; rw [hv], ?_⟩
    cases hn : p.numFactors with
    | zero => simp [denotes]
    | succ n =>
      have h := read_factors p env d v vs hv n 0 (by omega) 1
      rw [← List.range_eq_range'] at h
      have hne' : (List.range (n + 1)).flatMap (p.printFactor v vs) ≠ [] := by
        rw [List.range_succ_eq_map, List.flatMap_cons]
        unfold LinProd.printFactor
        simp
      unfold denotes
      split
      · rename_i heq
        exact absurd heq hne'
      · rw [h]
        simp [Finset.prod_range]

/-- **C183** (partial): a product that was not homogenized by a variable is printed as a text that denotes its value.
Missing: the homogenized products. -/
theorem C183_partial (p : LinProd) (homogenized : Bool) (env d : Env) (hp : p.WF) (hf : p.FlagOK homogenized)
    (hne : p.vars ≠ []) (hh : ∀ h, p.hom ≠ .var h) :
    ∃ ts, p.print = some ts ∧ denotes env d ts = some (p.eval env) := by
  obtain ⟨ts, h1, h2⟩ := print_shown p env d hne
  refine ⟨ts, h1, ?_⟩
  rw [h2, C14_value]
  congr 1
  refine prod_congr rfl fun i _ => ?_
  unfold shown LinProd.form
  congr 1
  rcases hf with ⟨-, hc⟩ | ⟨-, hv | ⟨h, hx⟩⟩
  · have : p.isHomVars ≠ true := fun h => by rw [(hp.homVars h).1] at hc; cases hc
    rw [if_neg this, hc]
    simp [HomPart.eval]
  · rw [if_pos hv, (hp.homVars hv).2, zero_mul]
  · exact absurd hx (hh h)

/-- **C183** (what is missing): a homogenized product is printed without its homogenizing variable, as a text that denotes
the value where this variable is one. -/
theorem C183_hom (p : LinProd) (env d : Env) (hp : p.WF) (hne : p.vars ≠ []) (h : Var) (hh : p.hom = .var h) :
    ∃ ts, p.print = some ts ∧ denotes env d ts = some (p.eval (atOne h env)) := by
  obtain ⟨ts, h1, h2⟩ := print_shown p env d hne
  refine ⟨ts, h1, ?_⟩
  rw [h2, C14_value]
  congr 1
  refine prod_congr rfl fun i _ => ?_
  unfold shown LinProd.form
  have hv : p.isHomVars ≠ true := fun hx => by rw [(hp.homVars hx).1] at hh; cases hh
  rw [if_neg hv, hh]
  congr 1
  · refine sum_congr rfl fun j _ => ?_
    have : p.vars[j] ≠ h := by
      intro e
      exact hp.homFresh h hh (e ▸ List.getElem_mem _)
    simp [atOne, show p.vars[(j : ℕ)] ≠ h from this]
  · simp [HomPart.eval, atOne]

/-- The full claim fails: `2x + 3h` is printed as `2x + 3`. -/
theorem C183_refuted : ¬ C183_full := by
  intro H
  let p : LinProd := ⟨[0], .var 1, 1, fun _ j => if j = 0 then 2 else 3, false⟩
  have hp : p.WF := ⟨by simp [p], by simp [p], by simp [p]⟩
  obtain ⟨ts, h1, h2⟩ := H p true (fun _ => 0) (fun _ => 0) hp (Or.inr ⟨rfl, Or.inr ⟨1, rfl⟩⟩) (by simp [p])
  obtain ⟨ts', h3, h4⟩ := C183_hom p (fun _ => 0) (fun _ => 0) hp (by simp [p]) 1 rfl
  rw [h1] at h3
  cases h3
  rw [h4] at h2
  simp [C14_value, LinProd.form, HomPart.eval, atOne, p] at h2

theorem read_diff_rest (l : LinProd) (env d : Env) (vs : List Var) (j : ℕ) (P s t : ℂ) (k : List LTok) :
    ∃ s' t', s' + t' = s + t + restSum l d 0 vs j ∧
      lreads env d ⟨.have_, P, s, t⟩ (l.printDiffRest vs j ++ k) = lreads env d ⟨.have_, P, s', t'⟩ k := by
  induction vs generalizing j s t with
  | nil => exact ⟨s, t, by simp [restSum], rfl⟩
  | cons v vs ih =>
    obtain ⟨s', t', h1, h2⟩ := ih (j + 1) (s + t) (1 * l.coeff 0 j * d v)
    refine ⟨s', t', ?_, h2⟩
    rw [h1, restSum]
    ring

theorem sum_idx (l : LinProd) (hn : l.vars.Nodup) (v : Var) :
    ∑ j : Fin l.vars.length, l.coeff 0 j * (if l.vars[j] = v then 1 else 0) =
      if l.vars.idxOf v < l.vars.length then l.coeff 0 (l.vars.idxOf v) else 0 := by
  by_cases h : l.vars.idxOf v < l.vars.length
  · rw [if_pos h, Finset.sum_eq_single ⟨l.vars.idxOf v, h⟩]
    · have : l.vars[l.vars.idxOf v] = v := List.getElem_idxOf h
      simp [this]
    · intro j _ hj
      have : l.vars[j] ≠ v := by
        intro e
        refine hj (Fin.ext ?_)
        have := hn.idxOf_getElem j.1 j.2
        rw [← this]
        show List.idxOf l.vars[j] l.vars = List.idxOf v l.vars
        rw [e]
      simp [show l.vars[(j : ℕ)] ≠ v from this]
    · intro hx; exact absurd (mem_univ _) hx
  · rw [if_neg h]
    refine sum_eq_zero fun j _ => ?_
    have : l.vars[j] ≠ v := fun e => h (List.idxOf_lt_length_iff.mpr (e ▸ List.getElem_mem _))
    simp [show l.vars[(j : ℕ)] ≠ v from this]

/-- **C183** (differentials): the differential of a linear is printed as a text that denotes `Σ c_j dx_j`; with `dv` one
and the other differentials zero this is the value of the node for the variable `v`, unless `v` is the homogenizing
variable. -/
theorem C183_diff (l : LinProd) (hn : l.vars.Nodup) (hne : l.vars ≠ []) (env d : Env) :
    ∃ ts, l.printDiff = some ts ∧
      denotes env d ts = some (∑ j : Fin l.vars.length, l.coeff 0 j * d (l.vars[j])) ∧
      ∀ v, l.hom ≠ .var v → denotes env (fun w => if w = v then 1 else 0) ts = some (diffLinearEval l (some v)) := by
  obtain ⟨v, vs, hv⟩ := List.exists_cons_of_ne_nil hne
  · have key : ∀ d' : Env, denotes env d' (.lpar :: .num (l.coeff 0 0) :: .star :: .dvar v :: (l.printDiffRest vs 1 ++ [.rpar])) =
        some (∑ j : Fin l.vars.length, l.coeff 0 j * d' (l.vars[j])) := by
      intro d'
      obtain ⟨s', t', h1, h2⟩ := read_diff_rest l env d' vs 1 1 0 (1 * l.coeff 0 0 * d' v) [.rpar]
      have e : lreads env d' ⟨.out, 1, 0, 1⟩
          (.lpar :: .num (l.coeff 0 0) :: .star :: .dvar v :: (l.printDiffRest vs 1 ++ [.rpar])) =
          some ⟨.done, 1 * (s' + t'), 0, 1⟩ := by
        show lreads env d' ⟨.have_, 1, 0, 1 * l.coeff 0 0 * d' v⟩ (l.printDiffRest vs 1 ++ [.rpar]) = _
        rw [h2]
        rfl
      have h0 : ∑ j : Fin l.vars.length, l.coeff 0 j * d' (l.vars[j]) = restSum l d' 0 l.vars 0 := by
        rw [restSum_eq]
        simp
      rw [h0, hv]
      simp only [denotes, e, restSum, h1]
      simp
    refine ⟨_, by unfold LinProd.printDiff; rw [hv], ?_, ?_⟩
    · exact key d
    · intro w hw
      rw [key, sum_idx l hn w]
      simp [diffLinearEval, hw]

/-- Witness: two factors in two variables. -/
example : (LinProd.mk [0, 1] (.const 1) 2 (fun i j => (i + j : ℕ)) false).WF ∧
    (LinProd.mk [0, 1] (.const 1) 2 (fun i j => (i + j : ℕ)) false).FlagOK false :=
  ⟨⟨by simp, by simp, by simp⟩, Or.inl ⟨rfl, rfl⟩⟩

/-! ### C184 -/

/-- The full claim: `IsHomogeneous(v)` answers true only if scaling the variable (all variables of the product, if none is
given) multiplies the value by a power of the factor. -/
def C184_full : Prop := ∀ (p : LinProd) (homogenized : Bool), p.WF → p.FlagOK homogenized →
  (∀ v, p.isHomV homogenized (some v) = true → ∃ n : ℕ, ∀ env c, p.eval (scale c [v] env) = c ^ n * p.eval env) ∧
  (p.isHomV homogenized none = true → ∃ n : ℕ, ∀ env c vars, (∀ v ∈ p.vars, v ∈ vars) →
    (∀ h, p.hom = .var h → h ∈ vars) → p.eval (scale c vars env) = c ^ n * p.eval env)

/-- **C184** (partial): the claim for all variables except the homogenizing one. -/
theorem C184_partial (p : LinProd) (homogenized : Bool) (hp : p.WF) (hf : p.FlagOK homogenized) :
    (∀ v, p.hom ≠ .var v → p.isHomV homogenized (some v) = true →
      ∃ n : ℕ, ∀ env c, p.eval (scale c [v] env) = c ^ n * p.eval env) ∧
    (p.isHomV homogenized none = true → ∃ n : ℕ, ∀ env c vars, (∀ v ∈ p.vars, v ∈ vars) →
      (∀ h, p.hom = .var h → h ∈ vars) → p.eval (scale c vars env) = c ^ n * p.eval env) := by
  constructor
  · intro v hv hi
    refine ⟨0, fun env c => ?_⟩
    have hm : v ∉ p.vars := by
      intro hm
      simp [LinProd.isHomV, hm] at hi
    rw [pow_zero, one_mul, C14_value, C14_value]
    refine prod_congr rfl fun i _ => ?_
    unfold LinProd.form
    congr 1
    · refine sum_congr rfl fun j _ => ?_
      have : p.vars[j] ≠ v := fun e => hm (e ▸ List.getElem_mem _)
      simp [scale, show p.vars[(j : ℕ)] ≠ v from this]
    · congr 1
      cases hq : p.hom with
      | const c => rfl
      | var h =>
        have : h ≠ v := fun e => hv (e ▸ hq)
        simp [HomPart.eval, scale, this]
  · intro hi
    have hhom : homogenized = true := by
      cases homogenized
      · simp [LinProd.isHomV] at hi
      · rfl
    refine ⟨p.numFactors, fun env c vars h1 h2 => ?_⟩
    rw [C14_value, C14_value, ← Fin.prod_const, ← Finset.prod_mul_distrib]
    refine prod_congr rfl fun i _ => ?_
    unfold LinProd.form
    rw [mul_add, Finset.mul_sum]
    congr 1
    · refine sum_congr rfl fun j _ => ?_
      rw [scale, if_pos (h1 _ (by simp))]; ring
    · rcases hf with ⟨hx, -⟩ | ⟨-, hx | ⟨h, hx⟩⟩
      · rw [hhom] at hx; cases hx
      · rw [(hp.homVars hx).2]; simp
      · rw [hx]
        simp only [HomPart.eval, scale, h2 h hx, if_true]; ring

/-- The full claim fails: `2x + 3h` is said to be homogeneous in the homogenizing variable `h`. -/
theorem C184_refuted : ¬ C184_full := by
  intro H
  let p : LinProd := ⟨[0], .var 1, 1, fun _ j => if j = 0 then 2 else 3, false⟩
  have hp : p.WF := ⟨by simp [p], by simp [p], by simp [p]⟩
  obtain ⟨n, hn⟩ := (H p true hp (Or.inr ⟨rfl, Or.inr ⟨1, rfl⟩⟩)).1 1 (by simp [LinProd.isHomV, p])
  have h1 := hn (fun v => if v = 0 then 1 else 0) 2
  have h2 := hn (fun v => if v = 0 then 0 else 1) 2
  simp [C14_value, LinProd.form, HomPart.eval, scale, p] at h1 h2
  rw [h1] at h2
  norm_num at h2

/-- **C184** (negative answers): the answer is false exactly for the variables of the product, and without a variable
exactly for a product that was not homogenized. -/
theorem C184_false (p : LinProd) (homogenized : Bool) (hf : p.FlagOK homogenized) :
    (∀ v, p.isHomV homogenized (some v) = false ↔ v ∈ p.vars) ∧
    (p.isHomV homogenized none = false ↔ p.hom = .const 1 ∧ homogenized = false) := by
  constructor
  · intro v
    by_cases h : v ∈ p.vars <;> simp [LinProd.isHomV, h]
  · rcases hf with ⟨rfl, h⟩ | ⟨rfl, -⟩
    · simp [LinProd.isHomV, h]
    · simp [LinProd.isHomV]

end B2
