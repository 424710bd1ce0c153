/-
Properties C179 (comparison of patches) and C180 (real random patches).
-/
import Verif.Patch.Equal
import Verif.Patch.PropsPatch

namespace B2.Patch

variable {K : Type} [Field K]

/-! ### Specification -/

/-- What every constructor establishes: the sizes are those of the coefficient vectors. -/
def Obj.Ok (a : Obj K) : Prop := a.sizes = a.hi.map List.length

/-- Two patches are the same patch: the groups have the same sizes, and every point gives the same values. -/
def Same (a b : Obj K) : Prop :=
  a.sizes = b.sizes ∧ ∀ x : List K, x.length = a.sizes.sum → eval a.hi x = eval b.hi x

/-- **C179**, the full statement: comparing never fails and finds out whether two patches are the same patch; and equal
patches at the same working precision work with the same coefficients, whatever was done with them before. -/
def C179_full : Prop :=
  (∀ a b : Obj ℚ, a.Ok → b.Ok → ∃ r, patchEq a b = some r ∧ (r = true ↔ Same a b)) ∧
  (∀ (rnd : ℕ → ℚ → ℚ) (d e : ℕ) (cs : List ℚ) (ops ops' : List Prec.Op),
    (Prec.run rnd (Prec.init rnd d cs) ops).prec = (Prec.run rnd (Prec.init rnd e cs) ops').prec →
    (Prec.run rnd (Prec.init rnd d cs) ops).work = (Prec.run rnd (Prec.init rnd e cs) ops').work)

/-! ### Proofs: comparison -/

theorem eqSizes_spec (a b : List ℕ) (n ii : ℕ) (ha : a.length = ii + n) (hb : b.length = ii + n) :
    eqSizes a b n ii = some (decide (a.drop ii = b.drop ii)) := by
  induction n generalizing ii with
  | zero =>
    rw [eqSizes, List.drop_of_length_le (by omega), List.drop_of_length_le (by omega)]
    rfl
  | succ n ih =>
    have h1 : ii < a.length := by omega
    have h2 : ii < b.length := by omega
    rw [eqSizes, List.getElem?_eq_getElem h1, List.getElem?_eq_getElem h2, List.drop_eq_getElem_cons h1,
      List.drop_eq_getElem_cons h2]
    dsimp only
    by_cases h : a[ii] ≠ b[ii]
    · rw [if_pos h, decide_eq_false fun c => h (List.cons.inj c).1]
    · rw [if_neg h, ih (ii + 1) (by omega) (by omega), not_not.1 h]
      exact congrArg some (decide_eq_decide.2 ⟨fun c => by rw [c], fun c => (List.cons.inj c).2⟩)

theorem eqCoeffs_spec [DecidableEq K] (a b : List (List K)) (n ii : ℕ) (ha : a.length = ii + n) (hb : b.length = ii + n)
    (hl : a.map List.length = b.map List.length) :
    eqCoeffs a b n ii = some (decide (a.drop ii = b.drop ii)) := by
  induction n generalizing ii with
  | zero =>
    rw [eqCoeffs, List.drop_of_length_le (by omega), List.drop_of_length_le (by omega)]
    simp
  | succ n ih =>
    have h1 : ii < a.length := by omega
    have h2 : ii < b.length := by omega
    have h3 : a[ii].length = b[ii].length := by
      have := congrArg (fun l : List ℕ => l[ii]?) hl
      simpa [List.getElem?_eq_getElem h1, List.getElem?_eq_getElem h2] using this
    rw [eqCoeffs, List.getElem?_eq_getElem h1, List.getElem?_eq_getElem h2, List.drop_eq_getElem_cons h1,
      List.drop_eq_getElem_cons h2]
    dsimp only
    rw [if_neg (by simpa using h3)]
    by_cases h : a[ii] ≠ b[ii]
    · rw [if_pos h, decide_eq_false fun c => h (List.cons.inj c).1]
    · rw [if_neg h, ih (ii + 1) (by omega) (by omega), not_not.1 h]
      exact congrArg some (decide_eq_decide.2 ⟨fun c => by rw [c], fun c => (List.cons.inj c).2⟩)

theorem patchEq_spec [DecidableEq K] (a b : Obj K) (ha : a.Ok) (hb : b.Ok) :
    patchEq a b = some (decide (a.hi = b.hi)) := by
  unfold patchEq
  by_cases h1 : a.sizes.length ≠ b.sizes.length
  · rw [if_pos h1]
    have : a.hi ≠ b.hi := fun h => h1 (by rw [ha, hb, h])
    simp [this]
  by_cases h2 : a.sizes.sum ≠ b.sizes.sum
  · rw [if_neg h1, if_pos h2]
    have : a.hi ≠ b.hi := fun h => h2 (by rw [ha, hb, h])
    simp [this]
  rw [if_neg h1, if_neg h2, eqSizes_spec a.sizes b.sizes _ 0 (by omega) (by omega)]
  simp only [List.drop_zero]
  by_cases h3 : a.sizes = b.sizes
  · simp only [h3, decide_true]
    rw [eqCoeffs_spec a.hi b.hi _ 0 (by rw [← h3, ha]; simp) (by rw [hb]; simp) (by rw [← ha, ← hb, h3])]
    simp
  · have : a.hi ≠ b.hi := fun h => h3 (by rw [ha, hb, h])
    simp [h3, this]

/-- Blocks of a point. -/
theorem blocks (cs : List (List K)) (x : List K) (h : x.length = numVariables cs) :
    ∃ xs, Fits cs xs ∧ xs.flatten = x := by
  induction cs generalizing x with
  | nil =>
    have : x = [] := List.length_eq_zero_iff.1 (by simpa [numVariables] using h)
    exact ⟨[], .nil, by simp [this]⟩
  | cons c cs ih =>
    have h' : x.length = c.length + numVariables cs := by simpa [numVariables] using h
    obtain ⟨xs, h1, h2⟩ := ih (x.drop c.length) (by rw [List.length_drop]; omega)
    exact ⟨x.take c.length :: xs, .cons (by rw [List.length_take]; omega) h1, by simp [h2]⟩

theorem eval_fits (cs xs : List (List K)) (hf : Fits cs xs) :
    eval cs xs.flatten = some (List.zipWith value cs xs) := by
  rw [eval, C29_values cs xs _ hf (by simp)]
  simp

/-- A unit vector picks a coefficient. -/
theorem dot_unit (c : List K) (k : ℕ) (h : k < c.length) :
    dot ((List.replicate c.length (0 : K)).set k 1) c = c[k] := by
  induction c generalizing k with
  | nil => simp at h
  | cons a c ih =>
    cases k with
    | zero =>
      have : ∀ l : List K, (List.zipWith (· * ·) (List.replicate l.length (0 : K)) l).sum = 0 := by
        intro l
        induction l with
        | nil => rfl
        | cons b l ih => simp [List.replicate_succ, ih]
      simp [dot, List.replicate_succ, this]
    | succ k =>
      have := ih k (by simpa using h)
      simp only [dot] at this
      simp [dot, List.replicate_succ, this]

/-- Two coefficient vectors of the same size with the same values are equal. -/
theorem coeffs_ext (c d : List K) (hl : c.length = d.length)
    (h : ∀ x : List K, x.length = c.length → value c x = value d x) : c = d := by
  refine List.ext_getElem hl fun k h1 h2 => ?_
  have := h ((List.replicate c.length (0 : K)).set k 1) (by simp)
  unfold value at this
  rw [dot_unit c k h1, hl, dot_unit d k h2] at this
  exact sub_left_injective this

theorem fits_zero (cs : List (List K)) : Fits cs (cs.map fun c => List.replicate c.length (0 : K)) := by
  induction cs with
  | nil => exact .nil
  | cons c cs ih => exact .cons (by simp) ih

theorem patch_ext (cs ds : List (List K)) (hl : cs.map List.length = ds.map List.length)
    (h : ∀ xs, Fits cs xs → List.zipWith value cs xs = List.zipWith value ds xs) : cs = ds := by
  induction cs generalizing ds with
  | nil => cases ds with
    | nil => rfl
    | cons d ds => simp at hl
  | cons c cs ih =>
    cases ds with
    | nil => simp at hl
    | cons d ds =>
      simp only [List.map_cons, List.cons.injEq] at hl
      have h1 : c = d := by
        refine coeffs_ext c d hl.1 fun x hx => ?_
        have := h (x :: cs.map (fun c : List K => List.replicate c.length (0 : K))) (.cons hx.symm (fits_zero cs))
        simpa using (List.cons.inj this).1
      have h2 : cs = ds := by
        refine ih ds hl.2 fun xs hxs => ?_
        have := h (List.replicate c.length 0 :: xs) (.cons (by simp) hxs)
        exact (List.cons.inj this).2
      rw [h1, h2]

/-- **C179, exact coefficients**: comparing two patches never fails, and finds them equal exactly when they are the same
patch; `!=` is the opposite. -/
theorem C179_partial [DecidableEq K] (a b : Obj K) (ha : a.Ok) (hb : b.Ok) :
    ∃ r, patchEq a b = some r ∧ patchNe a b = some (!r) ∧ (r = true ↔ Same a b) := by
  refine ⟨decide (a.hi = b.hi), patchEq_spec a b ha hb, by rw [patchNe, patchEq_spec a b ha hb]; rfl, ?_⟩
  rw [decide_eq_true_iff]
  constructor
  · intro h
    exact ⟨by rw [ha, hb, h], fun x _ => by rw [h]⟩
  · rintro ⟨h1, h2⟩
    rw [ha, hb] at h1
    refine patch_ext a.hi b.hi h1 fun xs hxs => ?_
    have hn : xs.flatten.length = a.sizes.sum := by
      rw [ha]
      exact numVariables_fits hxs |>.symm ▸ rfl
    have := h2 xs.flatten hn
    have hb' : Fits b.hi xs := by
      unfold Fits at hxs ⊢
      rw [List.forall₂_iff_get] at hxs ⊢
      have hlen : a.hi.length = b.hi.length := by simpa using congrArg List.length h1
      refine ⟨by rw [← hlen]; exact hxs.1, fun i h3 h4 => ?_⟩
      have h5 := hxs.2 i (by omega) h4
      rw [← h5]
      have := congrArg (fun l : List ℕ => l[i]?) h1
      have h6 : i < a.hi.length := by omega
      simpa [List.getElem?_eq_getElem h3, List.getElem?_eq_getElem h6] using this.symm
    rw [eval_fits a.hi xs hxs, eval_fits b.hi xs hb'] at this
    exact Option.some.inj this

/-- **C179 fails**: a copy of a patch is equal to it and at the same precision, but works with other coefficients. -/
theorem C179_refuted : ¬ C179_full := by
  rintro ⟨-, h⟩
  refine Prec.C30_copy_refuted fun d cs => ?_
  have := h Prec.nearest d d cs [.copy d] [] rfl
  rw [this]
  rfl

/-- The hypotheses: two patches on the same groups that differ in one coefficient, and a third with other groups. -/
example : patchEq (⟨[2, 1], [[1, 2], [3]]⟩ : Obj ℚ) ⟨[2, 1], [[1, 2], [4]]⟩ = some false ∧
    patchEq (⟨[2, 1], [[1, 2], [3]]⟩ : Obj ℚ) ⟨[2, 1], [[1, 2], [3]]⟩ = some true ∧
    patchEq (⟨[2, 1], [[1, 2], [3]]⟩ : Obj ℚ) ⟨[1, 2], [[1], [2, 3]]⟩ = some false ∧
    (⟨[2, 1], [[1, 2], [3]]⟩ : Obj ℚ).Ok :=
  ⟨by decide +kernel, by decide +kernel, by decide +kernel, rfl⟩

/-! ### C180: real random patches -/

/-- All entries are real. -/
def Real' (x : List ℂ) : Prop := ∀ z ∈ x, z.im = 0

/-- Conjugate points. -/
noncomputable def conjs (x : List ℂ) : List ℂ := x.map (starRingEnd ℂ)

theorem conjs_eq_iff (x : List ℂ) : conjs x = x ↔ Real' x := by
  induction x with
  | nil => exact ⟨fun _ z h => by (cases h), fun _ => rfl⟩
  | cons a x ih =>
    have h1 : conjs (a :: x) = a :: x ↔ starRingEnd ℂ a = a ∧ conjs x = x := by
      simp [conjs]
    rw [h1, ih]
    simp [Real', Complex.conj_eq_iff_im]

theorem conj_dot (x c : List ℂ) (hc : Real' c) : starRingEnd ℂ (dot x c) = dot (conjs x) c := by
  unfold dot conjs
  induction c generalizing x with
  | nil => simp
  | cons a c ih =>
    cases x with
    | nil => simp
    | cons b x =>
      have h1 : starRingEnd ℂ a = a := Complex.conj_eq_iff_im.2 (hc a (by simp))
      have := ih x fun z hz => hc z (List.mem_cons_of_mem _ hz)
      simp [h1, this]

theorem conj_rescaleLoop (cs : List (List ℂ)) (hc : ∀ c ∈ cs, Real' c) (start : ℕ) (x : List ℂ) :
    rescaleLoop cs start (conjs x) = (rescaleLoop cs start x).map conjs := by
  induction cs generalizing start x with
  | nil => rfl
  | cons c cs ih =>
    have hl : (conjs x).length = x.length := by simp [conjs]
    have hd : dot (((conjs x).drop start).take c.length) c = starRingEnd ℂ (dot ((x.drop start).take c.length) c) := by
      rw [conj_dot _ _ (hc c (by simp))]
      simp [conjs, List.map_take, List.map_drop]
    rw [rescaleLoop, rescaleLoop, hl]
    by_cases h1 : x.length < start + c.length
    · rw [if_pos h1, if_pos h1]; rfl
    rw [if_neg h1, if_neg h1]
    by_cases h2 : dot ((x.drop start).take c.length) c = 0
    · rw [if_pos h2, if_pos (by rw [hd, h2]; simp)]; rfl
    rw [if_neg h2, if_neg (by rw [hd]; simpa using h2), ← ih (fun c' h => hc c' (List.mem_cons_of_mem _ h))]
    congr 1
    rw [hd]
    simp [conjs, List.map_take, List.map_drop, Function.comp_def]

theorem conj_rescale (cs : List (List ℂ)) (hc : ∀ c ∈ cs, Real' c) (x : List ℂ) :
    rescale cs (conjs x) = (rescale cs x).map conjs := by
  unfold rescale
  have hl : (conjs x).length = x.length := by simp [conjs]
  rw [hl]
  split
  · rfl
  · exact conj_rescaleLoop cs hc 0 x

theorem randomReal_spec (draw : ℕ → ℝ) (sizes : List ℕ) (k : ℕ) (h : ∀ n ∈ sizes, n ≠ 0) :
    ∃ cs, randomReal draw sizes k = some cs ∧ cs.map List.length = sizes ∧ (∀ c ∈ cs, Real' c) ∧
      cs.flatten = (List.range sizes.sum).map fun j => (draw (k + j) : ℂ) := by
  induction sizes generalizing k with
  | nil => exact ⟨[], rfl, rfl, fun c hc => by (cases hc), rfl⟩
  | cons n sizes ih =>
    obtain ⟨cs, h1, h2, h3, h4⟩ := ih (k + n) fun m hm => h m (List.mem_cons_of_mem _ hm)
    rw [randomReal, if_neg (h n (by simp)), h1]
    refine ⟨_, rfl, by simp [h2], ?_, ?_⟩
    · intro c hc
      rcases List.mem_cons.1 hc with rfl | hc
      · intro z hz
        obtain ⟨j, -, rfl⟩ := List.mem_map.1 hz
        simp
      · exact h3 c hc
    · rw [List.flatten_cons, h4, List.sum_cons, List.range_add, List.map_append, List.map_map]
      simp [Function.comp_def, Nat.add_assoc]

/-- **C180**: for every list of nonempty groups and all draws, `RandomReal` makes a patch on these groups, with one real
coefficient in [-1, 1] for each variable, each from its own draw; the patch rescales real points to real points and
conjugate points to conjugate points. -/
theorem C180_real (draw : ℕ → ℝ) (hd : ∀ k, -1 ≤ draw k ∧ draw k ≤ 1) (sizes : List ℕ) (h : ∀ n ∈ sizes, n ≠ 0) :
    ∃ cs, randomReal draw sizes 0 = some cs ∧ cs.map List.length = sizes ∧
      cs.flatten = (List.range sizes.sum).map (fun j => (draw j : ℂ)) ∧
      (∀ c ∈ cs, ∀ z ∈ c, z.im = 0 ∧ -1 ≤ z.re ∧ z.re ≤ 1) ∧
      (∀ x, rescale cs (conjs x) = (rescale cs x).map conjs) ∧
      (∀ x y, rescale cs x = some y → (∀ z ∈ x, z.im = 0) → ∀ z ∈ y, z.im = 0) := by
  obtain ⟨cs, h1, h2, h3, h4⟩ := randomReal_spec draw sizes 0 h
  have h4' : cs.flatten = (List.range sizes.sum).map (fun j => (draw j : ℂ)) := by rw [h4]; simp
  refine ⟨cs, h1, h2, h4', ?_, conj_rescale cs h3, ?_⟩
  · intro c hc z hz
    have : z ∈ cs.flatten := List.mem_flatten.2 ⟨c, hc, hz⟩
    rw [h4'] at this
    obtain ⟨j, -, rfl⟩ := List.mem_map.1 this
    exact ⟨by simp, by simpa using hd j⟩
  · intro x y hy hx
    have := conj_rescale cs h3 x
    rw [(conjs_eq_iff x).2 hx, hy] at this
    exact (conjs_eq_iff y).1 (Option.some.inj this).symm

/-- The hypotheses, and a point that is rescaled. -/
example : ∃ cs, randomReal (fun _ => 1 / 2) [2, 1] 0 = some cs ∧ ∃ y, rescale cs [1, 1, 4] = some y ∧ Real' y := by
  obtain ⟨cs, h1, -, -, -, -, h6⟩ := C180_real (fun _ => 1 / 2) (fun _ => by norm_num) [2, 1] (by simp)
  refine ⟨cs, h1, ?_⟩
  have hcs : cs = [[1 / 2, 1 / 2], [1 / 2]] := by
    simp [randomReal, List.range_succ] at h1
    simpa using h1.symm
  have hr : rescale cs [1, 1, 4] = some [1, 1, 2] := by
    have := C28_rescale (K := ℂ) [[1 / 2, 1 / 2], [1 / 2]] [[1, 1], [4]] (.cons rfl (.cons rfl .nil)) (by norm_num [dot])
    rw [hcs]
    simp only [List.flatten_cons, List.flatten_nil, List.append_nil, List.cons_append, List.nil_append] at this
    rw [this]
    norm_num [scaled, dot]
  exact ⟨_, hr, h6 _ _ hr (by simp)⟩

end B2.Patch
