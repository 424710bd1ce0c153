import Verif.Alg.MetaEq
import Verif.Alg.PropsMetadata

/-!
# C190: metadata can be compared and printed
-/

namespace B2.Alg.Md

open B2.Track (Code)

variable {d : ℕ}

/-! ### Specification -/

/-- The members other than the final time (which always has a value) have values. -/
def Readable (m : MD) : Prop :=
  m.raw.pathIndex ≠ none ∧ m.raw.solIndex ≠ none ∧ m.raw.cond ≠ none ∧ m.raw.newton ≠ none ∧ m.raw.acc ≠ none ∧
    m.raw.accUser ≠ none ∧ m.raw.cycle ≠ none ∧ m.raw.resid ≠ none ∧ m.raw.isReal ≠ none ∧ m.raw.isFinite ≠ none ∧
    m.raw.isSingular ≠ none

/-- The same metadata: a final time not assigned is zero. -/
def Same (m o : MD) : Prop :=
  { m with raw := { m.raw with time := some m.time } } = { o with raw := { o.raw with time := some o.time } }

/-- `m` is the record of path `i` after the calls of the log. -/
def RecOf (D : ℕ → EgData) (log : List (Ev d)) (i : ℕ) (m : MD) : Prop := m.raw = (records D log i).zeroed

/-! ### Chains -/

theorem conj_true (l : List (Option Bool)) : conj l = some true ↔ ∀ x ∈ l, x = some true := by
  induction l with
  | nil => simp [conj]
  | cons x l ih => rcases x with _ | _ | _ <;> simp [conj, ih]

/-- The chain is false exactly when a false value comes before any indeterminate one. -/
theorem conj_false (l : List (Option Bool)) : conj l = some false ↔
    ∃ a b, l = a ++ some false :: b ∧ ∀ x ∈ a, x = some true := by
  induction l with
  | nil => simp [conj]
  | cons x l ih =>
    rcases x with _ | _ | _
    · simp only [conj, reduceCtorEq, false_iff]
      rintro ⟨a, b, h1, h2⟩
      cases a with
      | nil => cases h1
      | cons y a =>
        simp only [List.cons_append, List.cons.injEq] at h1
        have := h2 y (by simp)
        rw [← h1.1] at this
        cases this
    · simp only [conj, true_iff]
      exact ⟨[], l, rfl, by simp⟩
    · simp only [conj, ih]
      constructor
      · rintro ⟨a, b, rfl, h2⟩
        exact ⟨some true :: a, b, rfl, by simpa using h2⟩
      · rintro ⟨a, b, h1, h2⟩
        cases a with
        | nil => cases h1
        | cons y a =>
          simp only [List.cons_append, List.cons.injEq] at h1
          exact ⟨a, b, h1.2, fun x hx => h2 x (by simp [hx])⟩

theorem cmp_true {α : Type} (a b : Option α) : cmp a b = some true ↔ a ≠ none ∧ a = b := by
  cases a <;> cases b <;> simp [cmp]

theorem cmp_false {α : Type} (a b : Option α) (h : cmp a b = some false) : a ≠ b := by
  cases a <;> cases b <;> simp_all [cmp]

theorem lines_none (l : List (String × Option Val)) : lines l = none ↔ ∃ x ∈ l, x.2 = none := by
  induction l with
  | nil => simp [lines]
  | cons x l ih =>
    obtain ⟨s, v⟩ := x
    cases v <;> simp [lines, ih]

theorem lines_inj (l l' : List (String × Option Val)) (t : List (String × Val)) (h : lines l = some t)
    (h' : lines l' = some t) : l = l' := by
  induction l generalizing l' t with
  | nil =>
    simp only [lines, Option.some.injEq] at h
    subst h
    cases l' with
    | nil => rfl
    | cons x l' =>
      obtain ⟨s, v⟩ := x
      cases v <;> simp [lines] at h'
  | cons x l ih =>
    obtain ⟨s, v⟩ := x
    cases v with
    | none => simp [lines] at h
    | some v =>
      simp only [lines, Option.map_eq_some_iff] at h
      obtain ⟨r, h1, rfl⟩ := h
      cases l' with
      | nil => simp [lines] at h'
      | cons y l' =>
        obtain ⟨s', v'⟩ := y
        cases v' with
        | none => simp [lines] at h'
        | some v' =>
          simp only [lines, Option.map_eq_some_iff, List.cons.injEq, Prod.mk.injEq] at h'
          obtain ⟨r', h2, ⟨rfl, rfl⟩, rfl⟩ := h'
          rw [ih l' _ h1 h2]

/-! ### C190 -/

theorem same_iff (m o : MD) : Same m o ↔
    m.raw.pathIndex = o.raw.pathIndex ∧ m.raw.solIndex = o.raw.solIndex ∧ m.precChanged = o.precChanged ∧
    m.firstTime = o.firstTime ∧ m.maxPrec = o.maxPrec ∧ m.pre = o.pre ∧ m.raw.cond = o.raw.cond ∧
    m.raw.newton = o.raw.newton ∧ m.time = o.time ∧ m.raw.acc = o.raw.acc ∧ m.raw.accUser = o.raw.accUser ∧
    m.raw.cycle = o.raw.cycle ∧ m.eg = o.eg ∧ m.raw.resid = o.raw.resid ∧ m.mult = o.mult ∧
    m.raw.isReal = o.raw.isReal ∧ m.raw.isFinite = o.raw.isFinite ∧ m.raw.isSingular = o.raw.isSingular := by
  simp only [Same, MD.mk.injEq, Rec.mk.injEq, Option.some.injEq]
  tauto

/-- Equal: exactly when all members have values and are equal. -/
theorem C190_eq (m o : MD) : mdEq m o = some true ↔ Readable m ∧ Same m o := by
  rw [same_iff, mdEq, conj_true]
  simp only [List.mem_cons, List.not_mem_nil, or_false, forall_eq_or_imp, forall_eq, cmp_true, Readable, ne_eq,
    reduceCtorEq, not_false_eq_true, true_and, Option.some.injEq]
  tauto

/-- Not equal: then a member differs. -/
theorem C190_ne (m o : MD) (h : mdEq m o = some false) : ¬ Same m o := by
  rw [mdEq, conj_false] at h
  obtain ⟨a, b, h1, -⟩ := h
  have h2 : some false ∈ a ++ some false :: b := by simp
  rw [← h1] at h2
  rw [same_iff]
  rintro ⟨e1, e2, e3, e4, e5, e6, e7, e8, e9, e10, e11, e12, e13, e14, e15, e16, e17, e18⟩
  simp only [List.mem_cons, List.not_mem_nil, or_false, e1, e2, e3, e4, e5, e6, e7, e8, e9, e10, e11, e12, e13, e14, e15,
    e16, e17, e18] at h2
  have key : ∀ {α : Type} (x : Option α), ¬ some false = cmp x x := fun x hx => cmp_false x x hx.symm rfl
  simp only [key, or_false] at h2

/-- Records with values can always be compared. -/
theorem C190_readable (m o : MD) (hm : Readable m) (ho : Readable o) :
    (Same m o ∧ mdEq m o = some true) ∨ (¬ Same m o ∧ mdEq m o = some false) := by
  have hdef : mdEq m o ≠ none := by
    have h1 : ∀ l : List (Option Bool), (∀ x ∈ l, x ≠ none) → conj l ≠ none := by
      intro l
      induction l with
      | nil => intro _ h; cases h
      | cons x l ih =>
        intro h
        rcases x with _ | _ | _
        · exact absurd rfl (h none (by simp))
        · simp [conj]
        · exact ih fun y hy => h y (by simp [hy])
    have h2 : ∀ {α : Type} (a b : Option α), a ≠ none → b ≠ none → cmp a b ≠ none := by
      intro α a b ha hb
      cases a <;> cases b <;> simp_all [cmp]
    obtain ⟨a1, a2, a3, a4, a5, a6, a7, a8, a9, a10, a11⟩ := hm
    obtain ⟨b1, b2, b3, b4, b5, b6, b7, b8, b9, b10, b11⟩ := ho
    refine h1 _ ?_
    simp only [List.mem_cons, List.not_mem_nil, or_false, forall_eq_or_imp, forall_eq]
    refine ⟨h2 _ _ a1 b1, h2 _ _ a2 b2, ?_, ?_, ?_, ?_, h2 _ _ a3 b3, h2 _ _ a4 b4, ?_, h2 _ _ a5 b5, h2 _ _ a6 b6,
      h2 _ _ a7 b7, ?_, h2 _ _ a8 b8, ?_, h2 _ _ a9 b9, h2 _ _ a10 b10, h2 _ _ a11 b11⟩ <;> simp [cmp]
  match hv : mdEq m o, hdef with
  | some true, _ => exact .inl ⟨((C190_eq m o).1 hv).2, rfl⟩
  | some false, _ => exact .inr ⟨C190_ne m o hv, rfl⟩

/-- Printing is possible exactly when all members have values, and the text determines the record. -/
theorem C190_print (m o : MD) : (mdPrint m ≠ none ↔ Readable m) ∧ (Readable m → mdPrint m = mdPrint o → Same m o) := by
  have h1 : mdPrint m ≠ none ↔ Readable m := by
    rw [mdPrint, ne_eq, lines_none]
    simp only [List.mem_cons, List.not_mem_nil, or_false, exists_eq_or_imp, exists_eq_left, Option.map_eq_none_iff,
      reduceCtorEq, false_or, Readable, or_self]
    tauto
  refine ⟨h1, fun hm h => ?_⟩
  obtain ⟨t, ht⟩ := Option.ne_none_iff_exists'.1 (h1.2 hm)
  have h2 := lines_inj _ _ t ht (h ▸ ht)
  rw [same_iff]
  have hi : ∀ {α : Type} {f : α → Val} (_ : Function.Injective f) (a b : Option α), a.map f = b.map f → a = b :=
    fun hf a b h => Option.map_injective hf h
  simp only [List.cons.injEq, Prod.mk.injEq, true_and, Option.some.injEq, Val.flag.injEq, Val.cpx.injEq, Val.nat.injEq,
    Val.code.injEq, Val.int.injEq, and_true] at h2
  obtain ⟨e1, e2, e3, e4, e5, e6, e7, e8, e9, e10, e11, e12, e13, e14, e15, e16, e17, e18⟩ := h2
  have jn : Function.Injective Val.nat := fun _ _ h => Val.nat.inj h
  have jr : Function.Injective Val.real := fun _ _ h => Val.real.inj h
  have jf : Function.Injective Val.flag := fun _ _ h => Val.flag.inj h
  exact ⟨hi jn _ _ e1, hi jn _ _ e2, e3, e4, e5, e6, hi jr _ _ e7, hi jr _ _ e8, e9, hi jr _ _ e10, hi jr _ _ e11,
    hi jn _ _ e12, e13, hi jr _ _ e14, e15, hi jf _ _ e16, hi jf _ _ e17, hi jf _ _ e18⟩

/-- Boundary points of the same dimension with step sizes can be compared. -/
theorem C190_boundary (m o : BD) (hl : m.pt.length = o.pt.length) (hm : m.step ≠ none) (ho : o.step ≠ none) :
    (m = o ∧ bdEq m o = some true) ∨ (m ≠ o ∧ bdEq m o = some false) := by
  obtain ⟨p, c, s⟩ := m
  obtain ⟨p', c', s'⟩ := o
  dsimp only at hl hm ho
  obtain ⟨x, rfl⟩ := Option.ne_none_iff_exists'.1 hm
  obtain ⟨y, rfl⟩ := Option.ne_none_iff_exists'.1 ho
  simp only [bdEq, vecEq]
  rw [if_pos hl]
  by_cases h1 : p = p' <;> by_cases h2 : c = c' <;> by_cases h3 : x = y <;> simp [cmp, conj, h1, h2, h3]

theorem readable_zeroed (m : MD) (r : Rec) (h : m.raw = r.zeroed) : Readable m := by
  simp [Readable, h, Rec.zeroed]

/-- **C190.** The records of any two calls of `Solve` can be printed and compared; they compare equal exactly when all members are
equal, and exactly then their texts are the same. Records of different paths never compare equal. -/
theorem C190 {N : ℕ} (E E' : ZEnv d) (cfg cfg' : ZCfg) (s s' : ZSt d) (D D' : ℕ → EgData) (hr : Reach N s) (hr' : Reach N s')
    (i j : ℕ) (hi : i < N) (hj : j < N) (m o : MD) (hm : RecOf D (solve N E cfg s).log i m)
    (ho : RecOf D' (solve N E' cfg' s').log j o) :
    mdPrint m ≠ none ∧ (mdEq m o = some true ∨ mdEq m o = some false) ∧ (mdEq m o = some true ↔ Same m o) ∧
      (mdPrint m = mdPrint o ↔ Same m o) ∧ (i ≠ j → mdEq m o = some false) := by
  have rm := readable_zeroed m _ hm
  have ro := readable_zeroed o _ ho
  have hc := C190_readable m o rm ro
  refine ⟨(C190_print m o).1.2 rm, hc.elim (fun h => .inl h.2) (fun h => .inr h.2), ?_, ⟨(C190_print m o).2 rm, fun h => ?_⟩, ?_⟩
  · rw [C190_eq]
    exact ⟨fun h => h.2, fun h => ⟨rm, h⟩⟩
  · rw [same_iff] at h
    obtain ⟨e1, e2, e3, e4, e5, e6, e7, e8, e9, e10, e11, e12, e13, e14, e15, e16, e17, e18⟩ := h
    simp only [mdPrint, e1, e2, e3, e4, e5, e6, e7, e8, e9, e10, e11, e12, e13, e14, e15, e16, e17, e18]
  · intro hij
    obtain ⟨a1, -⟩ := C137_partial E cfg s D hr i hi
    obtain ⟨b1, -⟩ := C137_partial E' cfg' s' D' hr' j hj
    rcases hc with ⟨h, -⟩ | ⟨-, h⟩
    · exfalso
      have h1 := ((same_iff m o).1 h).1
      rw [hm, ho] at h1
      simp only [Rec.zeroed, a1, b1, Option.getD_some, Option.some.injEq] at h1
      exact hij h1
    · exact h

/-- A record declared as a local variable and filled by hand cannot be compared with itself or printed before all members without
initial value are assigned. -/
theorem C190_local (m : MD) (h : ¬ Readable m) : mdEq m m = none ∧ mdPrint m = none := by
  constructor
  · match hv : mdEq m m with
    | none => rfl
    | some true => exact absurd ((C190_eq m m).1 hv).1 h
    | some false => exact absurd ((same_iff m m).2 (by simp)) (C190_ne m m hv)
  · by_contra hp
    exact h ((C190_print m m).1.1 hp)

example : mdEq ⟨Rec.fresh, false, 0, 0, .success, .success, 1⟩ ⟨Rec.fresh, false, 0, 0, .success, .success, 1⟩ = none :=
  (C190_local _ fun h => h.1 rfl).1

/-- Records of a solve with two paths. -/
example (D : ℕ → EgData) : let L := (solve 2 (meetEnv .success) zcfgD (ZSt.init 1)).log
    let m : ℕ → MD := fun i => ⟨(records D L i).zeroed, false, 0, 16, .success, .success, 1⟩
    mdEq (m 0) (m 1) = some false ∧ mdEq (m 0) (m 0) = some true := by
  intro L m
  obtain ⟨-, -, -, -, h⟩ := C190 (N := 2) (meetEnv .success) (meetEnv .success) zcfgD zcfgD (ZSt.init 1) (ZSt.init 1) D D
    Reach.init Reach.init 0 1 (by norm_num) (by norm_num) (m 0) (m 1) rfl rfl
  refine ⟨h (by norm_num), (C190_eq _ _).2 ⟨readable_zeroed _ _ rfl, (same_iff _ _).2 (by simp)⟩⟩

/-- A record with all values, and one which differs in the multiplicity. -/
example : let r : Rec := ⟨some 0, some 0, some 1, some 1, some 0, some 1, some 1, some 1, some 1, some true, some true, some false⟩
    let m : MD := ⟨r, false, 0, 16, .success, .success, 1⟩
    mdEq m m = some true ∧ mdEq m { m with mult := 2 } = some false ∧ mdPrint m ≠ none := by
  intro r m
  have hm : Readable m := by simp [Readable, m, r]
  refine ⟨(C190_eq m m).2 ⟨hm, (same_iff m m).2 (by simp)⟩, ?_, (C190_print m m).1.2 hm⟩
  rcases C190_readable m { m with mult := 2 } hm hm with ⟨h, -⟩ | ⟨-, h⟩
  · rw [same_iff] at h
    exact absurd h.2.2.2.2.2.2.2.2.2.2.2.2.2.2.1 (by simp [m])
  · exact h

example : let m : BD := ⟨[1, 2], .success, some 1⟩
    bdEq m { m with step := some 2 } = some false := by
  intro m
  rcases C190_boundary m { m with step := some 2 } rfl (by simp [m]) (by simp) with ⟨h, -⟩ | ⟨-, h⟩
  · simp [m] at h
  · exact h

end B2.Alg.Md
