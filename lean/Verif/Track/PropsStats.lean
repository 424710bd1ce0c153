/-
C169: the numbers a tracker reports about its latest step.
-/
import Verif.Track.Stats
import Mathlib.Data.List.Induction

namespace B2.Track.Stat

variable {R : Type}

/-! ### Specification -/

/-- All that happened to a tracker, in order. -/
def history : List (Use R) → List (Ev R)
  | [] => []
  | .track _ es :: us => es ++ history us
  | .refine _ es :: us => es ++ history us

/-- Of the things that happened, the latest one of interest. -/
def latest {α : Type} (f : Ev R → Option α) (l : List (Ev R)) : Option α := (l.filterMap f).getLast?

/-- The product of the norms at a prediction; for an adaptive tracker also at a Newton iteration. -/
def estimate (mul : R → R → R) : Kind → Ev R → Option R
  | .fixed, .predict e _ _ _ => some (mul e.jac e.inv)
  | .amp _, .predict _ e _ _ => some (mul e.jac e.inv)
  | .amp _, .newton e _ => some (mul e.jac e.inv)
  | _, _ => none

/-- The length of a Newton step. -/
def stepLength : Ev R → Option R
  | .newton _ dz => some dz
  | _ => none

/-- The error estimate of a prediction. -/
def predError : Ev R → Option R
  | .predict _ _ err _ => some err
  | _ => none

def isPredict : Ev R → Bool
  | .predict .. => true
  | _ => false

/-- Refinement runs Newton's method only. -/
def Use.Legal : Use R → Prop
  | .track _ _ => True
  | .refine _ es => ∀ e ∈ es, isPredict e = false

/-- The tracker after some uses, starting with a new one. -/
def after (mul : R → R → R) (k : Kind) (us : List (Use R)) : Stats R :=
  us.foldl (Use.act mul k) {}

/-- The estimates made at the predictions of a path of a fixed precision tracker. -/
def made (mul : R → R → R) (es : List (Ev R)) : List R := es.filterMap (estimate mul .fixed)

/-- The condition number is estimated at the first step and then every `f` steps: of `n` predictions
the latest estimate was made at prediction number `f·⌊(n-1)/f⌋`, counted from 0. -/
def everyFth (f : ℕ) (l : List R) : Option R := l[f * ((l.length - 1) / f)]?

/-- The full claim: a condition number every `frequency_of_CN_estimation` steps, and the length of
the latest Newton step. -/
def C169_full : Prop :=
  ∀ (R : Type) (mul : R → R → R) (f : ℕ) (es : List (Ev R)), 1 ≤ f →
    (after mul .fixed [.track f es]).latestCond = everyFth f (made mul es) ∧
    ∀ k, (after mul k [.track f es]).latestStep = latest stepLength es

/-! ### Proofs -/

theorem latest_append {α : Type} (f : Ev R → Option α) (l l' : List (Ev R)) :
    latest f (l ++ l') = (latest f l').or (latest f l) := by
  simp [latest, List.getLast?_append]

theorem latest_cons {α : Type} (f : Ev R → Option α) (e : Ev R) (l : List (Ev R)) :
    latest f (e :: l) = (latest f l).or (f e) := by
  rw [← List.singleton_append, latest_append]
  cases h : f e <;> simp [latest, h]

theorem setNormsCond_of_le (mul : R → R → R) (e : Est R) (c : Option R) {count freq : ℕ}
    (h : freq ≤ count) : (setNormsCond mul e c count freq).cond = some (mul e.jac e.inv) := by
  rw [setNormsCond, if_pos h]

/-- The counter never leaves the value it was given. -/
theorem act_count (mul : R → R → R) (f : ℕ) (k : Kind) (s : Stats R) (e : Ev R) (h : s.count = f) :
    (e.act mul f k s).count = f := by
  cases e <;> cases k <;> simp [Ev.act, h]

theorem act_cond (mul : R → R → R) (f : ℕ) (k : Kind) (s : Stats R) (e : Ev R)
    (h : s.count = f ∨ isPredict e = false) :
    (e.act mul f k s).cond = (estimate mul k e).or s.cond := by
  cases e with
  | predict e1 e2 err prop =>
    have h : f ≤ s.count := by
      rcases h with h | h
      · exact Nat.le_of_eq h.symm
      · cases h
    cases k <;> simp [Ev.act, estimate, setNormsCond_of_le, h]
  | newton e dz => cases k <;> simp [Ev.act, estimate]
  | prec => cases k <;> simp [Ev.act, estimate]

theorem fold_cond (mul : R → R → R) (f : ℕ) (k : Kind) (es : List (Ev R)) : ∀ (s : Stats R),
    s.count = f ∨ (∀ e ∈ es, isPredict e = false) →
    (es.foldl (Ev.act mul f k) s).cond = (latest (estimate mul k) es).or s.cond := by
  induction es with
  | nil => intro s _; simp [latest]
  | cons e es ih =>
    intro s h
    rw [List.foldl_cons, ih, act_cond, latest_cons, Option.or_assoc]
    · rcases h with h | h
      · exact Or.inl h
      · exact Or.inr (h e (by simp))
    · rcases h with h | h
      · exact Or.inl (act_count mul f k s e h)
      · exact Or.inr fun e' he => h e' (by simp [he])

theorem uses_cond (mul : R → R → R) (k : Kind) (us : List (Use R)) : ∀ (s : Stats R),
    (∀ u ∈ us, u.Legal) →
    (us.foldl (Use.act mul k) s).cond = (latest (estimate mul k) (history us)).or s.cond := by
  induction us with
  | nil => intro s _; simp [history, latest]
  | cons u us ih =>
    intro s h
    rw [List.foldl_cons, ih _ fun u hu => h u (by simp [hu])]
    have hu := h u (by simp)
    cases u with
    | track f es =>
      simp only [Use.act, history, latest_append, Option.or_assoc]
      rw [fold_cond mul f k es { s with count := f } (Or.inl rfl)]
    | refine f es =>
      simp only [Use.act, history, latest_append, Option.or_assoc]
      rw [fold_cond _ _ _ _ _ (Or.inr hu)]

/-- A number that each event sets according to `g`, and nothing else touches. -/
theorem uses_field {α : Type} (mul : R → R → R) (k : Kind) (p : Stats R → Option α)
    (g : Ev R → Option α) (hc : ∀ s n, p { s with count := n } = p s)
    (h : ∀ f s e, p (Ev.act mul f k s e) = (g e).or (p s)) (us : List (Use R)) :
    ∀ s : Stats R, p (us.foldl (Use.act mul k) s) = (latest g (history us)).or (p s) := by
  have hf : ∀ (f : ℕ) (es : List (Ev R)) (s : Stats R),
      p (es.foldl (Ev.act mul f k) s) = (latest g es).or (p s) := by
    intro f es
    induction es with
    | nil => intro s; simp [latest]
    | cons e es ih => intro s; rw [List.foldl_cons, ih, h, latest_cons, Option.or_assoc]
  induction us with
  | nil => intro s; simp [history, latest]
  | cons u us ih =>
    intro s
    rw [List.foldl_cons, ih]
    cases u <;> simp only [Use.act, history, latest_append, Option.or_assoc, hf, hc]

/-! ### Theorems -/

/-- Whatever the frequency set, `LatestConditionNumber` is the estimate made at the latest prediction,
with an adaptive tracker at the latest prediction or Newton iteration; before the first one it has
no value. -/
theorem C169_cond (mul : R → R → R) (k : Kind) (us : List (Use R)) (h : ∀ u ∈ us, u.Legal) :
    (after mul k us).latestCond = latest (estimate mul k) (history us) := by
  rw [after, Stats.latestCond, uses_cond mul k us _ h, Option.or_none]

/-- With an adaptive tracker `LatestNormOfStep` is the length of the latest Newton step, and
`LatestErrorEstimate` the error estimate of the latest prediction if the predictor has one. -/
theorem C169_amp (mul : R → R → R) (us : List (Use R)) :
    (∀ embedded, (after mul (.amp embedded) us).latestStep = latest stepLength (history us)) ∧
    (after mul (.amp true) us).latestErr = latest predError (history us) ∧
    (after mul (.amp false) us).latestErr = none := by
  refine ⟨fun embedded => ?_, ?_, ?_⟩
  · have := uses_field mul (.amp embedded) Stats.dz stepLength (fun _ _ => rfl)
      (fun f s e => by cases e <;> simp [Ev.act, stepLength]) us {}
    simpa [after, Stats.latestStep] using this
  · have := uses_field mul (.amp true) Stats.err predError (fun _ _ => rfl)
      (fun f s e => by cases e <;> simp [Ev.act, predError]) us {}
    simpa [after, Stats.latestErr] using this
  · have := uses_field mul (.amp false) Stats.err (fun _ => none) (fun _ _ => rfl)
      (fun f s e => by cases e <;> simp [Ev.act]) us {}
    simpa [after, Stats.latestErr, latest] using this

/-- What the choice of precision and step size reads after a prediction and the Newton iterations
that followed (`DigitsB`, `DigitsC`): the norms of the latest factorisation, and the size proportion
of the prediction. All of them have been written during the step. -/
theorem C169_read (mul : R → R → R) (f : ℕ) (embedded : Bool) (s : Stats R) (e1 e2 : Est R)
    (err prop : R) (ns : List (Est R × R)) :
    let s' := ((Ev.predict e1 e2 err prop) :: ns.map fun n => Ev.newton n.1 n.2).foldl
      (Ev.act mul f (.amp embedded)) s
    let e := (ns.getLast?.map Prod.fst).getD e2
    s'.jac = some e.jac ∧ s'.inv = some e.inv ∧ s'.prop = some prop := by
  induction ns using List.reverseRecOn with
  | nil =>
    simp only [List.map_nil, List.foldl_cons, List.foldl_nil, Ev.act, List.getLast?_nil,
      Option.map_none, Option.getD_none, setNormsCond]
    split <;> simp
  | append_singleton ns n ih =>
    obtain ⟨-, -, h⟩ := ih
    simp only [List.map_append, List.map_cons, List.map_nil, List.foldl_cons, List.foldl_append,
      List.foldl_nil, List.getLast?_concat, Option.map_some, Option.getD_some] at h ⊢
    exact ⟨rfl, rfl, h⟩

/-- With a fixed precision tracker nothing ever writes the length of the Newton step, the error
estimate, or the norms: the `newton_residual` of a solution is whatever was in memory. -/
theorem C169_fixed_unwritten (mul : R → R → R) (us : List (Use R)) :
    (after mul .fixed us).latestStep = none ∧ (after mul .fixed us).latestErr = none ∧
    (after mul .fixed us).jac = none ∧ (after mul .fixed us).inv = none ∧
    (after mul .fixed us).prop = none := by
  have H : ∀ p : Stats R → Option R, (∀ s n, p { s with count := n } = p s) →
      (∀ s c, p { s with cond := c } = p s) → p {} = none → p (after mul .fixed us) = none := by
    intro p hc hcond h0
    have := uses_field mul .fixed p (fun _ => none) hc
      (fun f s e => by cases e <;> simp [Ev.act, hcond]) us {}
    rw [after, this, h0]
    simp [latest]
  exact ⟨H Stats.dz (fun _ _ => rfl) (fun _ _ => rfl) rfl,
    H Stats.err (fun _ _ => rfl) (fun _ _ => rfl) rfl,
    H Stats.jac (fun _ _ => rfl) (fun _ _ => rfl) rfl,
    H Stats.inv (fun _ _ => rfl) (fun _ _ => rfl) rfl,
    H Stats.prop (fun _ _ => rfl) (fun _ _ => rfl) rfl⟩

/-- The part of the full claim that holds: frequency 1 (the default), and the Newton step of an
adaptive tracker. Missing: other frequencies, and the Newton step of a fixed precision tracker. -/
theorem C169_partial (mul : R → R → R) (f : ℕ) (es : List (Ev R)) :
    (f = 1 → (after mul .fixed [.track f es]).latestCond = everyFth f (made mul es)) ∧
    ∀ embedded, (after mul (.amp embedded) [.track f es]).latestStep = latest stepLength es := by
  constructor
  · rintro rfl
    rw [C169_cond mul .fixed _ (by simp [Use.Legal])]
    simp only [history, List.append_nil, latest, everyFth, made, Nat.div_one, Nat.one_mul]
    exact List.getLast?_eq_getElem?
  · intro embedded
    rw [(C169_amp mul _).1]
    simp [history]

/-! ### Refutations -/

/-- For every frequency above 1 some path has its condition number estimated at another step than
the frequency asks for. -/
theorem C169_frequency_refuted (f : ℕ) (hf : 2 ≤ f) : ∃ es : List (Ev ℕ),
    (after (· * ·) .fixed [.track f es]).latestCond ≠ everyFth f (made (· * ·) es) := by
  refine ⟨[.predict ⟨1, 1⟩ ⟨1, 1⟩ 0 0, .predict ⟨2, 1⟩ ⟨2, 1⟩ 0 0], ?_⟩
  rw [C169_cond _ _ _ (by simp [Use.Legal])]
  have : 1 / f = 0 := Nat.div_eq_of_lt (by omega)
  simp [history, latest, estimate, everyFth, made, this]

theorem C169_refuted : ¬ C169_full := by
  intro H
  obtain ⟨es, h⟩ := C169_frequency_refuted 2 (by decide)
  exact h (H ℕ (· * ·) 2 es (by decide)).1

/-- The other half fails too, at every frequency, for any path with a Newton iteration. -/
theorem C169_step_refuted (mul : R → R → R) (f : ℕ) (es es' : List (Ev R)) (e : Est R) (dz : R) :
    (after mul .fixed [.track f (es ++ .newton e dz :: es')]).latestStep ≠
      latest stepLength (es ++ .newton e dz :: es') := by
  rw [(C169_fixed_unwritten mul _).1, latest_append, latest_cons]
  cases latest stepLength es' <;> simp [stepLength]

/-! ### Instances -/

/-- Two paths and a refinement of an adaptive tracker; frequency 3. -/
example : (after (· * ·) (.amp true) [.track 3 [.predict ⟨2, 3⟩ ⟨2, 5⟩ 1 4, .newton ⟨2, 7⟩ 8, .prec,
    .predict ⟨3, 3⟩ ⟨3, 5⟩ 6 4], .refine 3 [.newton ⟨2, 11⟩ 9]]).latestCond = some 22 := by
  rw [C169_cond _ _ _ (by simp [Use.Legal, isPredict])]
  rfl

example : (after (· * ·) .fixed [.track 3 [.predict ⟨2, 3⟩ ⟨2, 5⟩ 1 4, .newton ⟨2, 7⟩ 8,
    .predict ⟨3, 3⟩ ⟨3, 5⟩ 6 4]]).latestCond = some 9 := by
  rw [C169_cond _ _ _ (by simp [Use.Legal])]
  rfl

end B2.Track.Stat
