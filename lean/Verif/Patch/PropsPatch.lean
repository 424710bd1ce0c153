import Verif.Patch.Basic
import Mathlib.Tactic.Ring
import Mathlib.Tactic.FieldSimp
import Mathlib.Tactic.NormNum
import Mathlib.Algebra.Order.Round
import Mathlib.Algebra.Order.Archimedean.Basic
import Mathlib.Data.Rat.Floor

/-!
# Properties C28, C29, C30: patches

A point is given block by block, `xs : List (List K)` (one block of coordinates per variable group,
in order), and the vector the code sees is `xs.flatten`.
-/

set_option linter.unusedSectionVars false

namespace B2.Patch

variable {K : Type} [Field K]

/-- The value of one patch equation: coefficients times block, minus one. -/
def value (c b : List K) : K := dot b c - 1

/-- The blocks `xs` fit the coefficient vectors `cs`: same number and same sizes. -/
def Fits (cs xs : List (List K)) : Prop := List.Forall₂ (fun c b => c.length = b.length) cs xs

theorem dotLoop_spec (post : List K) : ∀ (c b pre : List K) (v : K), c.length = b.length →
    dotLoop (pre ++ b ++ post) c pre.length v = some (v + dot b c) := by
  intro c
  induction c with
  | nil => intro b pre v h; cases b <;> simp_all [dotLoop, dot]
  | cons c cs ih =>
    intro b pre v h
    cases b with
    | nil => simp at h
    | cons b bs =>
      have := ih bs (pre ++ [b]) (v + b * c) (by simpa using h)
      simp only [List.length_append, List.length_singleton, List.append_assoc, List.nil_append,
        List.cons_append] at this
      simp only [dotLoop, List.append_assoc, List.cons_append]
      rw [List.getElem?_append_right (le_refl _)]
      simp [this, dot, add_assoc]

theorem evalLoop_spec (post : List K) : ∀ (cs xs : List (List K)) (pre vpre vs : List K),
    Fits cs xs → vs.length = cs.length →
    evalLoop (pre ++ xs.flatten ++ post) cs vpre.length pre.length (vpre ++ vs) =
      some (vpre ++ List.zipWith value cs xs) := by
  intro cs
  induction cs with
  | nil => intro xs pre vpre vs h hv; cases h; simp_all [evalLoop]
  | cons c cs ih =>
    intro xs pre vpre vs h hv
    cases h with
    | @cons _ b _ bs hcb ht =>
      cases vs with
      | nil => simp at hv
      | cons v vs =>
        have hd := dotLoop_spec (bs.flatten ++ post) c b pre (-1) hcb
        have := ih bs (pre ++ b) (vpre ++ [value c b]) vs ht (by simpa using hv)
        simp only [List.length_append, List.length_singleton, List.append_assoc,
          List.singleton_append] at this hd
        simp only [evalLoop, List.flatten_cons, List.append_assoc, hd, Option.bind_some, write]
        simp only [List.length_append, List.length_cons]
        rw [if_pos (by omega), Option.bind_some, List.set_append_right _ _ (le_refl _)]
        simp only [Nat.sub_self, List.set_cons_zero, hcb]
        have hval : -1 + dot b c = value c b := by simp [value]; ring
        rw [hval, this]
        simp

/-- **C29 (values).** For every list of group sizes, all coefficients, every output vector at least as
long as the number of groups and every point, `EvalInPlace` writes `coefficients · block - 1` for
group after group into the last entries and leaves the other entries alone. -/
theorem C29_values (cs xs : List (List K)) (vals : List K) (hf : Fits cs xs)
    (hl : cs.length ≤ vals.length) :
    evalInPlace cs vals xs.flatten =
      some (vals.take (vals.length - cs.length) ++ List.zipWith value cs xs) := by
  have := evalLoop_spec [] cs xs [] (vals.take (vals.length - cs.length))
    (vals.drop (vals.length - cs.length)) hf (by simp; omega)
  simp only [List.take_append_drop, List.nil_append, List.append_nil, List.length_take,
    List.length_nil] at this
  rw [evalInPlace, if_neg (by omega), ← this]
  congr 1
  omega

/-- Two groups of sizes 2 and 1, written after two function values. -/
example : evalInPlace [[1, 2], [3]] [7, 8, 0, 0] ([5, 6, 10] : List ℚ) = some [7, 8, 16, 29] := by
  have := C29_values (K := ℚ) [[1, 2], [3]] [[5, 6], [10]] [7, 8, 0, 0]
    (.cons rfl (.cons rfl .nil)) (by simp)
  simp only [List.flatten_cons, List.flatten_nil, List.append_nil, List.cons_append,
    List.nil_append] at this
  rw [this]; norm_num [value, dot]

/-- **C29 (short outputs are rejected).** -/
theorem C29_rejects (cs : List (List K)) (vals x : List K) (h : vals.length < cs.length) :
    evalInPlace cs vals x = none := by simp [evalInPlace, h]

/-- The row a block belongs to, in a matrix row of `w` zeros before, its coefficients, zeros after. -/
def blockRows : List (List K) → ℕ → ℕ → List (List K)
  | [], _, _ => []
  | c :: cs, before, after =>
    (List.replicate before 0 ++ c ++ List.replicate (after - c.length) 0) ::
      blockRows cs (before + c.length) (after - c.length)

theorem jacRow_spec : ∀ (c pre mid post : List K), c.length = mid.length →
    jacRow c pre.length (pre ++ mid ++ post) = some (pre ++ c ++ post) := by
  intro c
  induction c with
  | nil => intro pre mid post h; cases mid <;> simp_all [jacRow]
  | cons c cs ih =>
    intro pre mid post h
    cases mid with
    | nil => simp at h
    | cons m mid =>
      have := ih (pre ++ [c]) mid post (by simpa using h)
      simp only [List.length_append, List.length_singleton, List.append_assoc,
        List.nil_append, List.cons_append] at this
      simp only [jacRow, write, List.append_assoc, List.length_append, List.cons_append,
        List.length_cons]
      rw [if_pos (by omega), Option.bind_some, List.set_append_right _ _ (le_refl _)]
      simp [this]

/-- What the code guarantees about the rows without assuming them zero before: the block of the row is
overwritten, the rest of the row keeps its old entries. -/
def overwrite : List (List K) → ℕ → List (List K) → List (List K)
  | c :: cs, before, r :: rs =>
    (r.take before ++ c ++ r.drop (before + c.length)) :: overwrite cs (before + c.length) rs
  | _, _, _ => []

theorem jacLoop_spec : ∀ (cs : List (List K)) (k : ℕ) (mpre m : List (List K)),
    m.length = cs.length → (∀ r ∈ m, k + numVariables cs ≤ r.length) →
    jacLoop cs mpre.length k (mpre ++ m) = some (mpre ++ overwrite cs k m) := by
  intro cs
  induction cs with
  | nil => intro k mpre m hm _; cases m <;> simp_all [jacLoop, overwrite]
  | cons c cs ih =>
    intro k mpre m hm hr
    cases m with
    | nil => simp at hm
    | cons r m =>
      have hlen : k + c.length ≤ r.length := by
        have := hr r (by simp)
        simp [numVariables] at this; omega
      have hrow := jacRow_spec c (r.take k) ((r.drop k).take c.length) (r.drop (k + c.length))
        (by simp; omega)
      have hsplit : r.take k ++ (r.drop k).take c.length ++ r.drop (k + c.length) = r := by
        rw [← List.drop_drop, List.append_assoc, List.take_append_drop, List.take_append_drop]
      rw [hsplit, List.length_take, Nat.min_eq_left (by omega)] at hrow
      have := ih (k + c.length) (mpre ++ [r.take k ++ c ++ r.drop (k + c.length)]) m
        (by simpa using hm) (by
          intro q hq
          have := hr q (by simp [hq])
          simp [numVariables] at this ⊢; omega)
      simp only [List.length_append, List.length_singleton, List.append_assoc,
        List.singleton_append] at this
      simp only [jacLoop]
      rw [List.getElem?_append_right (le_refl _)]
      simp only [Nat.sub_self, List.getElem?_cons_zero, Option.bind_some, hrow, write,
        List.length_append, List.length_cons]
      rw [if_pos (by omega), Option.bind_some, List.set_append_right _ _ (le_refl _)]
      simp only [Nat.sub_self, List.set_cons_zero, List.append_assoc]
      rw [this]
      simp [overwrite]

theorem overwrite_zero : ∀ (cs : List (List K)) (k w : ℕ), k + numVariables cs ≤ w →
    overwrite cs k (List.replicate cs.length (List.replicate w 0)) = blockRows cs k (w - k) := by
  intro cs
  induction cs with
  | nil => intro k w _; simp [overwrite, blockRows]
  | cons c cs ih =>
    intro k w h
    simp only [numVariables, List.map_cons, List.sum_cons] at h
    simp only [List.length_cons, List.replicate_succ, overwrite, blockRows, List.take_replicate,
      List.drop_replicate]
    rw [ih (k + c.length) w (by simp [numVariables]; omega), Nat.min_eq_left (by omega),
      Nat.sub_sub w k]

/-- **C29 (Jacobian).** Given a matrix with the patch's number of columns, and zeros in the last rows,
`JacobianInPlace` leaves all rows before the last `NumVariableGroups` alone and puts, in row `i` of
the last ones, the coefficients of group `i` in the columns of that group's block, zeros elsewhere. -/
theorem C29_jacobian (cs : List (List K)) (m : List (List K))
    (hm : ∀ r ∈ m, r.length = numVariables cs) :
    jacobianInPlace cs (m ++ List.replicate cs.length (List.replicate (numVariables cs) 0)) =
      some (m ++ blockRows cs 0 (numVariables cs)) := by
  rw [jacobianInPlace, if_neg (by
    push Not
    refine ⟨by simp, ?_⟩
    intro r hr
    rcases List.mem_append.1 hr with h | h
    · exact hm r h
    · rw [(List.mem_replicate.1 h).2]; simp)]
  have := jacLoop_spec cs 0 m (List.replicate cs.length (List.replicate (numVariables cs) 0))
    (by simp) (by intro r hr; rw [(List.mem_replicate.1 hr).2]; simp)
  simp only [List.length_append, List.length_replicate, Nat.add_sub_cancel]
  rw [this, overwrite_zero _ _ _ (by simp)]
  simp

/-- **C29 (Jacobian, the entries not in a block are kept as they were).** Without the assumption that
the rows were zero. -/
theorem C29_jacobian_overwrite (cs : List (List K)) (m rows : List (List K))
    (hr : rows.length = cs.length) (hm : ∀ r ∈ m ++ rows, r.length = numVariables cs) :
    jacobianInPlace cs (m ++ rows) = some (m ++ overwrite cs 0 rows) := by
  rw [jacobianInPlace, if_neg (by
    push Not
    exact ⟨by simp [hr], hm⟩)]
  have := jacLoop_spec cs 0 m rows hr (by
    intro r h; rw [hm r (by simp [h])]; simp)
  simp only [List.length_append, hr, Nat.add_sub_cancel]
  exact this

example : jacobianInPlace [[1, 2], [3]] [[9, 9, 9], [0, 0, 0], [(0:ℚ), 0, 0]] =
    some [[9, 9, 9], [1, 2, 0], [0, 0, 3]] := by
  have := C29_jacobian (K := ℚ) [[1, 2], [3]] [[9, 9, 9]] (by simp [numVariables])
  simpa [blockRows, numVariables, List.replicate] using this

theorem dot_append (a b c d : List K) (h : a.length = c.length) :
    dot (a ++ b) (c ++ d) = dot a c + dot b d := by
  simp [dot, List.zipWith_append h]

theorem dot_zero : ∀ (b : List K) (n : ℕ), dot b (List.replicate n 0) = 0 := by
  intro b
  induction b with
  | nil => intro n; simp [dot]
  | cons x b ih =>
    intro n
    cases n with
    | zero => simp [dot]
    | succ n => have := ih n; simp [dot, List.replicate_succ] at this ⊢; exact this

theorem numVariables_fits {cs xs : List (List K)} (h : Fits cs xs) :
    numVariables cs = xs.flatten.length := by
  induction h with
  | nil => simp [numVariables]
  | cons h _ ih =>
    simp only [numVariables, List.map_cons, List.sum_cons, List.flatten_cons, List.length_append] at *
    omega

theorem rows_derivative : ∀ (cs xs ds : List (List K)) (pre dpre : List K), Fits cs xs →
    Fits cs ds → dpre.length = pre.length →
    List.zipWith value cs (List.zipWith (List.zipWith (· + ·)) xs ds) =
      List.zipWith (· + ·) (List.zipWith value cs xs)
        ((blockRows cs pre.length (numVariables cs)).map (dot (dpre ++ ds.flatten))) := by
  intro cs
  induction cs with
  | nil => intro xs ds pre dpre h1 h2 _; simp [blockRows]
  | cons c cs ih =>
    intro xs ds pre dpre h1 h2 hl
    cases h1 with
    | @cons _ x _ xs hx h1 =>
      cases h2 with
      | @cons _ d _ ds hd h2 =>
        have hn : numVariables (c :: cs) - c.length = numVariables cs := by
          simp [numVariables]
        simp only [blockRows, hn, List.zipWith_cons_cons, List.map_cons, List.flatten_cons]
        have htail := ih xs ds (pre ++ x) (dpre ++ d) h1 h2 (by simp; omega)
        simp only [List.length_append, List.append_assoc, ← hx] at htail
        rw [htail]
        congr 1
        have e1 : dot (dpre ++ (d ++ ds.flatten)) (List.replicate pre.length 0 ++ c ++
            List.replicate (numVariables cs) 0) = dot d c := by
          rw [List.append_assoc, dot_append _ _ _ _ (by simp [hl]), dot_append _ _ _ _ hd.symm,
            dot_zero, dot_zero]
          ring
        rw [e1]
        have e2 : dot (List.zipWith (· + ·) x d) c = dot x c + dot d c := by
          clear e1 htail hn hl h1 h2
          revert x d
          induction c with
          | nil => intro x hx d hd; simp [dot]
          | cons c cs ih2 =>
            intro x hx d hd
            cases x with
            | nil => simp at hx
            | cons x xs =>
              cases d with
              | nil => simp at hd
              | cons d ds =>
                have := ih2 (x := xs) (by simpa using hx) (d := ds) (by simpa using hd)
                simp only [dot, List.zipWith_cons_cons, List.sum_cons] at this ⊢
                rw [this]; ring
        simp only [value, e2]
        ring

/-- **C29 (consistency).** The rows written by `JacobianInPlace` are the derivative of the values
written by `EvalInPlace`: moving the point by any displacement `ds` changes the patch values by the
rows times the displacement (exactly: patches are affine). -/
theorem C29_consistent (cs xs ds : List (List K)) (hx : Fits cs xs) (hd : Fits cs ds) :
    List.zipWith value cs (List.zipWith (List.zipWith (· + ·)) xs ds) =
      List.zipWith (· + ·) (List.zipWith value cs xs)
        ((blockRows cs 0 (numVariables cs)).map (dot ds.flatten)) := by
  simpa using rows_derivative cs xs ds [] [] hx hd rfl

example : Fits [[1, 2], [3]] [[5, 6], [(10:ℚ)]] ∧ Fits [[1, 2], [3]] [[1, 0], [(4:ℚ)]] :=
  ⟨.cons rfl (.cons rfl .nil), .cons rfl (.cons rfl .nil)⟩

variable [DecidableEq K]

/-- The block divided by its product with the coefficients. -/
def scaled (c b : List K) : List K := b.map (· / dot b c)

theorem rescaleLoop_spec (post : List K) : ∀ (cs xs : List (List K)) (pre : List K), Fits cs xs →
    (∀ p ∈ cs.zip xs, dot p.2 p.1 ≠ 0) →
    rescaleLoop cs pre.length (pre ++ xs.flatten ++ post) =
      some (pre ++ (List.zipWith scaled cs xs).flatten ++ post) := by
  intro cs
  induction cs with
  | nil => intro xs pre h _; cases h; simp [rescaleLoop]
  | cons c cs ih =>
    intro xs pre h hne
    cases h with
    | @cons _ b _ bs hcb ht =>
      have e : ((pre ++ (b :: bs).flatten ++ post).drop pre.length).take c.length = b := by
        simp [List.append_assoc, hcb]
      have e2 : (pre ++ (b :: bs).flatten ++ post).take pre.length = pre := by
        simp [List.append_assoc]
      have e3 : (pre ++ (b :: bs).flatten ++ post).drop (pre.length + c.length) =
          bs.flatten ++ post := by
        rw [hcb, ← List.drop_drop]; simp [List.append_assoc]
      have := ih bs (pre ++ scaled c b) ht (fun p hp => hne p (by simp [hp]))
      rw [rescaleLoop, if_neg (by simp [hcb]), e, e2, e3, if_neg (hne (c, b) (by simp))]
      have hlen : pre.length + c.length = (pre ++ scaled c b).length := by simp [scaled, hcb]
      rw [hlen]
      simpa [List.append_assoc, scaled] using this

theorem dot_scaled (c b : List K) (h : dot b c ≠ 0) : dot (scaled c b) c = 1 := by
  have key : ∀ (c b : List K) (s : K), dot (b.map (· / s)) c = dot b c / s := by
    intro c
    induction c with
    | nil => intro b s; simp [dot]
    | cons c cs ih =>
      intro b s
      cases b with
      | nil => simp [dot]
      | cons b bs =>
        have := ih bs s
        simp only [dot, List.map_cons, List.zipWith_cons_cons, List.sum_cons] at this ⊢
        rw [this]; ring
  rw [scaled, key, div_self h]

/-- **C28 (result).** For all group sizes, coefficients and points no block of which is orthogonal to
its coefficients, `RescalePointToFitInPlace` succeeds and returns each block divided by its product
with the coefficients. -/
theorem C28_rescale (cs xs : List (List K)) (hf : Fits cs xs)
    (hne : ∀ p ∈ cs.zip xs, dot p.2 p.1 ≠ 0) :
    rescale cs xs.flatten = some (List.zipWith scaled cs xs).flatten := by
  rw [rescale, if_neg (by simp [numVariables_fits hf])]
  simpa using rescaleLoop_spec [] cs xs [] hf hne

theorem fits_scaled {cs xs : List (List K)} (hf : Fits cs xs) :
    Fits cs (List.zipWith scaled cs xs) := by
  induction hf with
  | nil => exact .nil
  | cons h _ ih => exact .cons (by simpa [scaled] using h) ih

/-- **C28 (on the patch).** The rescaled point satisfies every patch equation: `Eval` on it is the
zero vector. -/
theorem C28_on_patch (cs xs : List (List K)) (hf : Fits cs xs)
    (hne : ∀ p ∈ cs.zip xs, dot p.2 p.1 ≠ 0) :
    ((rescale cs xs.flatten).bind (eval cs)) = some (List.replicate cs.length 0) := by
  rw [C28_rescale cs xs hf hne, Option.bind_some, eval,
    C29_values cs _ _ (fits_scaled hf) (by simp)]
  simp only [List.length_replicate, Nat.sub_self, List.take_zero, List.nil_append]
  congr 1
  induction hf with
  | nil => rfl
  | @cons c b cs bs h ht ih =>
    simp only [List.zipWith_cons_cons, List.length_cons, List.replicate_succ]
    rw [ih (fun p hp => hne p (by simp [hp])), value, dot_scaled c b (hne (c, b) (by simp)), sub_self]

/-- **C28 (same projective point).** Each block of the result is a nonzero scalar times the block of
the input. -/
theorem C28_scalar (cs xs : List (List K)) (hf : Fits cs xs)
    (hne : ∀ p ∈ cs.zip xs, dot p.2 p.1 ≠ 0) :
    ∃ ys : List (List K), rescale cs xs.flatten = some ys.flatten ∧
      List.Forall₂ (fun x y => ∃ s : K, s ≠ 0 ∧ y = x.map (s * ·)) xs ys := by
  refine ⟨_, C28_rescale cs xs hf hne, ?_⟩
  induction hf with
  | nil => exact .nil
  | @cons c b cs bs h ht ih =>
    refine .cons ⟨(dot b c)⁻¹, inv_ne_zero (hne (c, b) (by simp)), ?_⟩
      (ih (fun p hp => hne p (by simp [hp])))
    simp only [scaled]
    exact List.map_congr_left fun a _ => by rw [div_eq_mul_inv, mul_comm]

/-- **C28 (idempotent).** Rescaling twice is the same as rescaling once. -/
theorem C28_idempotent (cs xs : List (List K)) (hf : Fits cs xs)
    (hne : ∀ p ∈ cs.zip xs, dot p.2 p.1 ≠ 0) :
    (rescale cs xs.flatten).bind (rescale cs) = rescale cs xs.flatten := by
  have hone : ∀ p ∈ cs.zip (List.zipWith scaled cs xs), dot p.2 p.1 = 1 := by
    clear hf
    induction cs generalizing xs with
    | nil => simp
    | cons c cs ih =>
      cases xs with
      | nil => simp
      | cons b bs =>
        intro p hp
        simp only [List.zipWith_cons_cons, List.zip_cons_cons, List.mem_cons] at hp
        rcases hp with rfl | hp
        · exact dot_scaled c b (hne (c, b) (by simp))
        · exact ih bs (fun q hq => hne q (by simp [hq])) p hp
  have hid : List.zipWith scaled cs (List.zipWith scaled cs xs) = List.zipWith scaled cs xs := by
    have hfs := fits_scaled hf
    revert hone hfs
    generalize List.zipWith scaled cs xs = ys
    clear hne hf
    intro hone hfs
    induction hfs with
    | nil => rfl
    | @cons c y cs ys h ht ih =>
      simp only [List.zipWith_cons_cons]
      rw [ih (fun p hp => hone p (by simp [hp]))]
      have := hone (c, y) (by simp)
      simp [scaled, this]
  rw [C28_rescale cs xs hf hne, Option.bind_some,
    C28_rescale cs _ (fits_scaled hf) (fun p hp => by rw [hone p hp]; exact one_ne_zero), hid]

/-- **C28 (coordinates after the blocks).** With assertions off, coordinates after the patched blocks
are left alone. -/
theorem C28_outside (cs xs : List (List K)) (post : List K) (hf : Fits cs xs)
    (hne : ∀ p ∈ cs.zip xs, dot p.2 p.1 ≠ 0) :
    rescaleLoop cs 0 (xs.flatten ++ post) =
      some ((List.zipWith scaled cs xs).flatten ++ post) := by
  simpa using rescaleLoop_spec post cs xs [] hf hne

/-- The hypotheses are met by two groups of sizes 2 and 1. -/
example : Fits [[1, 2], [3]] [[5, 6], [(10:ℚ)]] ∧
    ∀ p ∈ [[1, 2], [3]].zip [[5, 6], [(10:ℚ)]], dot p.2 p.1 ≠ 0 :=
  ⟨.cons rfl (.cons rfl .nil), by norm_num [dot]⟩

example : rescale [[1, 2], [3]] ([5, 6, 10] : List ℚ) = some [5 / 17, 6 / 17, 1 / 3] := by
  have := C28_rescale (K := ℚ) [[1, 2], [3]] [[5, 6], [10]] (.cons rfl (.cons rfl .nil))
    (by norm_num [dot])
  simp only [List.flatten_cons, List.flatten_nil, List.append_nil, List.cons_append,
    List.nil_append] at this
  rw [this]; norm_num [scaled, dot]

end B2.Patch

namespace B2.Patch.Prec

/-- The full claim of C30, for a given rounding: after any sequence of precision changes and copies,
the working coefficients are the stored ones rounded to the current precision. -/
def C30_full (K : Type) (rnd : ℕ → K → K) : Prop :=
  ∀ (d : ℕ) (cs : List K) (ops : List Op),
    (run rnd (init rnd d cs) ops).work = cs.map (rnd (run rnd (init rnd d cs) ops).prec)

/-- Rounding to `p` decimal places, to nearest. -/
def nearest (p : ℕ) (x : ℚ) : ℚ := (round (x * 10 ^ p) : ℚ) / 10 ^ p

/-- **C30 (refuted by copying).** The copy constructor does not round the working coefficients. -/
theorem C30_copy_refuted : ¬ ∀ (d : ℕ) (cs : List ℚ),
    (run nearest (init nearest d cs) [.copy d]).work =
      cs.map (nearest (run nearest (init nearest d cs) [.copy d]).prec) := by
  intro h
  have := h 0 [1 / 4]
  simp only [run, init, step, List.foldl, List.map_cons, List.map_nil, nearest] at this
  norm_num [round_eq] at this

/-- **C30 (refuted by lowering twice).** Lowering 2 → 1 → 0 digits rounds `0.45` to `0.5` and then to
`1`, while rounding once gives `0`. -/
theorem C30_lowering_refuted : ¬ ∀ (d : ℕ) (cs : List ℚ) (ps : List ℕ),
    (run nearest (init nearest d cs) (ps.map .setPrecision)).work =
      cs.map (nearest (run nearest (init nearest d cs) (ps.map .setPrecision)).prec) := by
  intro h
  have := h 2 [9 / 20] [1, 0]
  simp only [run, init, step, List.foldl, List.map_cons, List.map_nil, nearest] at this
  norm_num [round_eq] at this
  rw [nearest] at this
  norm_num [round_eq] at this

theorem C30_refuted : ¬ C30_full ℚ nearest := by
  intro h
  exact C30_copy_refuted fun d cs => h d cs [.copy d]

theorem hi_const {K : Type} (rnd : ℕ → K → K) : ∀ (ops : List Op) (s : State K),
    (run rnd s ops).hi = s.hi := by
  intro ops
  induction ops with
  | nil => intro s; rfl
  | cons o ops ih =>
    intro s
    have := ih (step rnd s o)
    simp only [run, List.foldl_cons] at this ⊢
    rw [this]
    cases o <;> simp only [step]
    split_ifs <;> rfl

/-- **C30 (stored coefficients).** No sequence of precision changes and copies alters the stored
highest-precision coefficients. -/
theorem C30_stored {K : Type} (rnd : ℕ → K → K) (d : ℕ) (cs : List K) (ops : List Op) :
    (run rnd (init rnd d cs) ops).hi = cs := hi_const rnd ops _

/-- **C30 (partial: exact after raising).** Whatever happened before (copies and lowerings included),
after raising the precision to `p` the working coefficients are exactly the stored ones rounded to
`p`: nothing was lost. -/
theorem C30_raise_partial {K : Type} (rnd : ℕ → K → K) (d : ℕ) (cs : List K) (ops : List Op) (p : ℕ)
    (hp : (run rnd (init rnd d cs) ops).prec < p) :
    (run rnd (init rnd d cs) (ops ++ [.setPrecision p])).work = cs.map (rnd p) := by
  have : run rnd (init rnd d cs) (ops ++ [.setPrecision p]) =
      step rnd (run rnd (init rnd d cs) ops) (.setPrecision p) := by
    simp [run]
  rw [this, step, if_neg (by omega), if_pos (by omega)]
  simp only [C30_stored]

example : (run nearest (init nearest 2 [9 / 20]) [.setPrecision 1, .copy 1]).prec < 7 := by
  norm_num [run, init, step]

/-- **C30 (partial: truncating roundings).** For a rounding for which rounding in two steps equals
rounding in one (truncation), the full claim holds as long as no copy is made. Missing: copies, and
round-to-nearest. -/
theorem C30_precision_partial {K : Type} (rnd : ℕ → K → K)
    (htrunc : ∀ p q x, p ≤ q → rnd p (rnd q x) = rnd p x) (d : ℕ) (cs : List K) (ps : List ℕ) :
    (run rnd (init rnd d cs) (ps.map .setPrecision)).work =
      cs.map (rnd (run rnd (init rnd d cs) (ps.map .setPrecision)).prec) := by
  have key : ∀ (ps : List ℕ) (s : State K), s.work = s.hi.map (rnd s.prec) →
      (run rnd s (ps.map .setPrecision)).work =
        s.hi.map (rnd (run rnd s (ps.map .setPrecision)).prec) := by
    intro ps
    induction ps with
    | nil => intro s h; exact h
    | cons p ps ih =>
      intro s h
      have hs : (step rnd s (.setPrecision p)).hi = s.hi := by
        simp only [step]; split_ifs <;> rfl
      have := ih (step rnd s (.setPrecision p)) (by
        simp only [step]
        split_ifs with h1 h2
        · exact h
        · rfl
        · simp only [h, List.map_map]
          exact List.map_congr_left fun a _ => htrunc p s.prec a (by omega))
      rw [hs] at this
      exact this
  exact key ps _ rfl

/-- Truncation to `p` decimal places satisfies the hypothesis. -/
example : ∀ (p q : ℕ) (x : ℚ), p ≤ q →
    (fun (p : ℕ) (x : ℚ) => (⌊x * 10 ^ p⌋ : ℚ) / 10 ^ p) p
      ((fun (p : ℕ) (x : ℚ) => (⌊x * 10 ^ p⌋ : ℚ) / 10 ^ p) q x) =
    (fun (p : ℕ) (x : ℚ) => (⌊x * 10 ^ p⌋ : ℚ) / 10 ^ p) p x := by
  intro p q x h
  obtain ⟨k, rfl⟩ := Nat.exists_eq_add_of_le h
  dsimp only
  congr 2
  have e : (⌊x * 10 ^ (p + k)⌋ : ℚ) / 10 ^ (p + k) * 10 ^ p = (⌊x * 10 ^ (p + k)⌋ : ℚ) / ((10 ^ k : ℕ) : ℚ) := by
    push_cast
    rw [pow_add]
    field_simp
  rw [e, Int.floor_div_natCast, Int.floor_intCast, ← Int.floor_div_natCast]
  congr 1
  push_cast
  rw [pow_add]
  field_simp

/-- **C30 (no accumulation).** For any rounding to `p` digits with error at most `ε p` on values of
size at most 1 (which it keeps at most 1), where each further digit at least halves `ε`: after any
sequence of precision changes and copies the working coefficients are within `2 ε p` of the stored
ones, `p` being the current precision. The error does not grow with the number of changes. -/
theorem C30_error {K : Type} [Field K] [LinearOrder K] [IsStrictOrderedRing K]
    (rnd : ℕ → K → K) (ε : ℕ → K) (hpos : ∀ p, 0 ≤ ε p) (hhalf : ∀ p, 2 * ε (p + 1) ≤ ε p)
    (hrnd : ∀ p x, |x| ≤ 1 → |rnd p x - x| ≤ ε p ∧ |rnd p x| ≤ 1)
    (d : ℕ) (cs : List K) (hcs : ∀ c ∈ cs, |c| ≤ 1) (ops : List Op) :
    List.Forall₂ (fun w c => |w - c| ≤ 2 * ε (run rnd (init rnd d cs) ops).prec)
      (run rnd (init rnd d cs) ops).work cs := by
  have hmono : ∀ p k, 2 * ε (p + k + 1) ≤ ε p := by
    intro p k
    induction k with
    | zero => exact hhalf p
    | succ k ih =>
      have h1 := hhalf (p + k + 1)
      have h2 := hpos (p + k + 1)
      have : ε (p + k + 1) ≤ 2 * ε (p + k + 1) := by linarith
      calc 2 * ε (p + (k + 1) + 1) ≤ ε (p + k + 1) := h1
        _ ≤ _ := this.trans ih
  let Good : State K → Prop := fun s =>
    List.Forall₂ (fun w c => |w - c| ≤ 2 * ε s.prec ∧ |w| ≤ 1 ∧ |c| ≤ 1) s.work s.hi
  have hmap : ∀ p (cs : List K), (∀ c ∈ cs, |c| ≤ 1) →
      List.Forall₂ (fun w c => |w - c| ≤ 2 * ε p ∧ |w| ≤ 1 ∧ |c| ≤ 1) (cs.map (rnd p)) cs := by
    intro p cs h
    induction cs with
    | nil => exact .nil
    | cons c cs ih =>
      have hc := hrnd p c (h c (by simp))
      have := hpos p
      exact .cons ⟨by linarith [hc.1], hc.2, h c (by simp)⟩ (ih fun x hx => h x (by simp [hx]))
  have hle : ∀ s, Good s → ∀ c ∈ s.hi, |c| ≤ 1 := by
    intro s hs c hc
    obtain ⟨n, hn, rfl⟩ := List.getElem_of_mem hc
    have := (List.forall₂_iff_get.1 hs).2 n (by
      rw [(List.forall₂_iff_get.1 hs).1]; exact hn) hn
    simpa using this.2.2
  have hstep : ∀ s o, Good s → Good (step rnd s o) := by
    intro s o hs
    cases o with
    | copy d =>
      have h := hle s hs
      change List.Forall₂ _ s.hi s.hi
      have gen : ∀ l : List K, (∀ c ∈ l, |c| ≤ 1) →
          List.Forall₂ (fun w c => |w - c| ≤ 2 * ε d ∧ |w| ≤ 1 ∧ |c| ≤ 1) l l := by
        intro l hl
        induction l with
        | nil => exact .nil
        | cons c cs ih =>
          have := hpos d
          exact .cons ⟨by simp; linarith, hl c (by simp), hl c (by simp)⟩
            (ih fun x hx => hl x (by simp [hx]))
      exact gen s.hi h
    | setPrecision p =>
      simp only [step]
      split_ifs with h1 h2
      · exact hs
      · exact hmap p s.hi (hle s hs)
      · have hlt : p < s.prec := by omega
        obtain ⟨k, hk⟩ := Nat.exists_eq_add_of_lt hlt
        have hm := hmono p k
        rw [← hk] at hm
        change List.Forall₂ _ (s.work.map (rnd p)) s.hi
        rw [List.forall₂_map_left_iff]
        refine List.Forall₂.imp ?_ hs
        intro w c ⟨hw, hw1, hc1⟩
        have := hrnd p w hw1
        refine ⟨?_, this.2, hc1⟩
        calc |rnd p w - c| = |(rnd p w - w) + (w - c)| := by ring_nf
          _ ≤ |rnd p w - w| + |w - c| := abs_add_le _ _
          _ ≤ 2 * ε p := by linarith [this.1]
  have hrun : ∀ ops s, Good s → Good (run rnd s ops) := by
    intro ops
    induction ops with
    | nil => intro s h; exact h
    | cons o ops ih => intro s h; exact ih _ (hstep s o h)
  have hfinal := hrun ops (init rnd d cs) (hmap d cs hcs)
  have hhi := C30_stored rnd d cs ops
  simp only [Good] at hfinal
  rw [hhi] at hfinal
  exact hfinal.imp fun _ _ h => h.1

/-- Decimal rounding to nearest satisfies the hypotheses, with `ε p = 10^(-p)`. -/
example : (∀ p, (0:ℚ) ≤ 1 / 10 ^ p) ∧ (∀ p, 2 * ((1:ℚ) / 10 ^ (p + 1)) ≤ 1 / 10 ^ p) ∧
    ∀ p x, |x| ≤ 1 → |nearest p x - x| ≤ (1:ℚ) / 10 ^ p ∧ |nearest p x| ≤ 1 := by
  refine ⟨fun p => by positivity, fun p => ?_, fun p x hx => ?_⟩
  · rw [pow_succ, mul_one_div, div_le_div_iff₀ (by positivity) (by positivity)]
    have : (0:ℚ) < 10 ^ p := by positivity
    linarith
  · have h10 : (0:ℚ) < 10 ^ p := by positivity
    have hr := abs_sub_round (x * 10 ^ p)
    constructor
    · have : nearest p x - x = -((x * 10 ^ p - round (x * 10 ^ p)) / 10 ^ p) := by
        rw [nearest]; field_simp; ring
      rw [this, abs_neg, abs_div, abs_of_pos h10]
      gcongr
      linarith
    · rw [nearest, abs_div, abs_of_pos h10, div_le_one h10]
      have hb : |x * 10 ^ p| ≤ 10 ^ p := by
        rw [abs_mul, abs_of_pos h10]
        calc |x| * 10 ^ p ≤ 1 * 10 ^ p := by gcongr
          _ = _ := one_mul _
      have hub : round (x * 10 ^ p) ≤ (10:ℤ) ^ p := by
        rw [← Int.lt_add_one_iff, ← Int.cast_lt (R := ℚ)]
        push_cast
        have := abs_le.1 hr; have := abs_le.1 hb
        linarith
      have hlb : -(10:ℤ) ^ p ≤ round (x * 10 ^ p) := by
        rw [← Int.sub_one_lt_iff, ← Int.cast_lt (R := ℚ)]
        push_cast
        have := abs_le.1 hr; have := abs_le.1 hb
        linarith
      rw [abs_le]
      constructor
      · exact_mod_cast hlb
      · exact_mod_cast hub

end B2.Patch.Prec
