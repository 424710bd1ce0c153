import Verif.Track.Coherence

/-!
# Precision coherence of the adaptive precision tracker (C126-C129)
-/

namespace B2.Track.Coh

variable {X : Type}

/-- Everything is at the tracker's current precision: the default precision, the system and, when
working in multiple precision (more than 16 digits), all numbers held by the tracker, its predictor
(including the Butcher table) and its corrector. This is what `PrecisionSanityCheck`
(amp_tracker.hpp 1577-1603) asserts, for all coordinates. -/
structure Coherent (s : Tk X) : Prop where
  ge : 16 ≤ s.cur
  dflt : s.dflt = s.cur
  sys : s.sys = s.cur
  dbl : s.cur = 16 → s.dsize = s.nvars
  mp : 16 < s.cur →
    s.space = List.replicate s.nvars s.cur ∧ s.tent = List.replicate s.nvars s.cur ∧
    s.temp = List.replicate s.nvars s.cur ∧ s.time = s.cur ∧ s.dt = s.cur ∧ s.step = s.cur ∧
    s.endt.prec = s.cur ∧ s.pred = s.cur ∧ s.tab = s.cur ∧ s.corr = s.cur

theorem foldr_max_replicate (n c m : ℕ) (h : c ≤ m) : (List.replicate n c).foldr max 0 ≤ m := by
  induction n with
  | zero => simp
  | succ n ih => simp [List.replicate_succ, h, ih]

theorem map_const (l : List ℕ) (p : ℕ) : l.map (fun _ => p) = List.replicate l.length p := by
  induction l with
  | nil => rfl
  | cons a l ih => simp [List.replicate_succ]

theorem coherent_multToDouble (R : ℕ → X → X) (src : List ℕ) (s : Tk X)
    (hl : src.length = s.nvars) : Coherent (multToDouble R src s) where
  ge := le_refl _
  dflt := rfl
  sys := rfl
  dbl := fun _ => hl
  mp := by intro h; simp [multToDouble, adjustCurrent] at h

theorem coherent_doubleToMult (R : ℕ → X → X) (p : ℕ) (hp : 16 < p) (s : Tk X)
    (hl : s.dsize = s.nvars) : Coherent (doubleToMult R p s) where
  ge := hp.le
  dflt := rfl
  sys := rfl
  dbl := by
    intro h
    have : p = 16 := h
    omega
  mp := by
    intro _
    simp [doubleToMult, adjustCurrent, adjustInternals, adjustTemporaries, MP.setPrec, hl]

theorem coherent_multToMult (R : ℕ → X → X) (p : ℕ) (hp : 16 < p) (src : List ℕ) (s : Tk X)
    (hl : src.length = s.nvars) : Coherent (multToMult R p src s) where
  ge := hp.le
  dflt := rfl
  sys := rfl
  dbl := by
    intro h
    have : p = 16 := h
    omega
  mp := by
    intro _
    simp [multToMult, adjustCurrent, adjustInternals, adjustTemporaries, MP.setPrec, hl]

theorem nvars_changePrec (R : ℕ → X → X) (p : ℕ) (s : Tk X) :
    (changePrec R p s).nvars = s.nvars := by
  unfold changePrec
  split
  · rfl
  split
  · rfl
  split <;> rfl

theorem cur_changePrec (R : ℕ → X → X) (p : ℕ) (s : Tk X) : (changePrec R p s).cur = p := by
  unfold changePrec
  split
  next h => exact h.symm
  split
  next h => exact h.1.symm
  split <;> rfl

theorem coherent_changePrec (R : ℕ → X → X) (p : ℕ) (hp : 16 ≤ p) (s : Tk X) (hs : Coherent s) :
    Coherent (changePrec R p s) := by
  have hge := hs.ge
  unfold changePrec
  split
  · exact hs
  split
  next h =>
    apply coherent_multToDouble R
    rw [(hs.mp h.2).1]
    simp
  split
  next h => exact coherent_doubleToMult R p h.1 s (hs.dbl h.2)
  next h1 h2 h3 =>
    have : 16 < s.cur := by omega
    apply coherent_multToMult R p (by omega)
    rw [(hs.mp this).1]
    simp

theorem coherent_refineStored (R : ℕ → X → X) (ok : Bool) (s : Tk X) (hs : Coherent s) :
    Coherent (refineStored R ok s) := by
  unfold refineStored
  split
  · exact hs
  next h =>
    have hc : 16 < s.cur := by have := hs.ge; omega
    obtain ⟨h1, h2, h3, h4, h5, h6, h7, h8, h9, h10⟩ := hs.mp hc
    have hch : changePrec R s.time s = s := by unfold changePrec; rw [if_pos h4]
    rw [hch]
    have hm : max (s.space.foldr max 0) (max s.time (max s.sys s.corr)) = s.cur := by
      have := foldr_max_replicate s.nvars s.cur s.cur (le_refl _)
      rw [h1, h4, hs.sys, h10]
      omega
    simp only [hm]
    split
    · exact ⟨hs.ge, hs.dflt, hs.sys, hs.dbl, fun _ => ⟨rfl, h2, rfl, h4, h5, h6, h7, h8, h9, h10⟩⟩
    · exact ⟨hs.ge, hs.dflt, hs.sys, hs.dbl, fun _ => ⟨h1, h2, rfl, h4, h5, h6, h7, h8, h9, h10⟩⟩

theorem coherent_initialRefine (R : ℕ → X → X) (ok : Bool) (oks : List Bool) (s : Tk X)
    (hs : Coherent s) : Coherent (initialRefine R ok oks s) := by
  unfold initialRefine
  have h0 := coherent_refineStored R ok s hs
  dsimp only
  split
  · exact h0
  · generalize refineStored R ok s = a at h0
    induction oks generalizing a with
    | nil => exact h0
    | cons b oks ih =>
      apply ih
      apply coherent_refineStored
      apply coherent_changePrec _ _ _ _ h0
      have := h0.ge
      split <;> omega

theorem coherent_begin (R : ℕ → X → X) (c : Call X) (s : Tk X) (hp : 16 ≤ c.first)
    (hl : c.point.length = s.nvars) : Coherent (begin R c s) := by
  unfold begin
  dsimp only
  apply coherent_changePrec R _ hp
  apply coherent_changePrec R _ hp
  split
  · exact coherent_multToDouble R _ _ hl
  · exact coherent_multToMult R _ (by omega) _ _ hl

theorem coherent_pass (R : ℕ → X → X) (s : Tk X) (q : Pass) (hs : Coherent s)
    (hq : ∀ x ∈ q.next, 16 ≤ x.1) : Coherent (pass R s q) := by
  -- what happens after the vectors have been written
  have key : ∀ a : Tk X, Coherent a → Coherent
      (let s := match q.next with
        | none => a
        | some (p, src) => changePrec R p { a with step := src.prec a }
      if q.accepted then { s with time := max s.time s.dt } else s) := by
    intro a ha
    have h1 : Coherent (match q.next with
        | none => a
        | some (p, src) => changePrec R p { a with step := src.prec a }) := by
      cases hn : q.next with
      | none => exact ha
      | some x =>
        obtain ⟨p, src⟩ := x
        apply coherent_changePrec
        · exact hq (p, src) (by rw [hn]; rfl)
        · refine ⟨ha.ge, ha.dflt, ha.sys, ha.dbl, fun hc => ?_⟩
          obtain ⟨h1, h2, h3, h4, h5, h6, h7, h8, h9, h10⟩ := ha.mp hc
          refine ⟨h1, h2, h3, h4, h5, ?_, h7, h8, h9, h10⟩
          have h0 := ha.dflt
          cases src <;> simp only [StepSrc.prec] <;> omega
    generalize (match q.next with
        | none => a
        | some (p, src) => changePrec R p { a with step := src.prec a }) = b at h1
    dsimp only
    split
    · refine ⟨h1.ge, h1.dflt, h1.sys, h1.dbl, fun hc => ?_⟩
      obtain ⟨k1, k2, k3, k4, k5, k6, k7, k8, k9, k10⟩ := h1.mp hc
      refine ⟨k1, k2, k3, ?_, k5, k6, k7, k8, k9, k10⟩
      simp only [k4, k5, max_self]
    · exact h1
  unfold pass
  refine key _ ?_
  -- the vectors
  have h0 : Coherent { s with
      dt := if q.cut then max s.endt.prec s.time else max s.step (max s.endt.prec s.time) } := by
    refine ⟨hs.ge, hs.dflt, hs.sys, hs.dbl, fun hc => ?_⟩
    obtain ⟨k1, k2, k3, k4, k5, k6, k7, k8, k9, k10⟩ := hs.mp hc
    refine ⟨k1, k2, k3, k4, ?_, k6, k7, k8, k9, k10⟩
    simp only [k4, k6, k7, max_self, ite_self]
  generalize ({ s with
      dt := if q.cut then max s.endt.prec s.time else max s.step (max s.endt.prec s.time) } : Tk X)
    = a at h0
  dsimp only
  split
  · exact h0
  next hne =>
    have hc : 16 < a.cur := by have := h0.ge; omega
    obtain ⟨k1, k2, k3, k4, k5, k6, k7, k8, k9, k10⟩ := h0.mp hc
    have hf := foldr_max_replicate a.nvars a.cur a.cur (le_refl _)
    have hP : a.predicted = a.cur := by
      unfold Tk.predicted
      rw [k1, k4, k5, h0.sys, k8, k9]
      omega
    have h1 : Coherent (if q.predicted = true then
        { a with temp := List.replicate a.nvars a.predicted } else a) := by
      split
      · exact ⟨h0.ge, h0.dflt, h0.sys, h0.dbl, fun _ =>
          ⟨k1, k2, by simp only [hP], k4, k5, k6, k7, k8, k9, k10⟩⟩
      · exact h0
    generalize (if q.predicted = true then
        { a with temp := List.replicate a.nvars a.predicted } else a) = b at h1
    have hcore : ∀ b : Tk X, Coherent b → Coherent (if q.corrected = true then
        { b with tent := List.replicate b.nvars b.corrected } else b) := by
      intro b hb
      split
      · refine ⟨hb.ge, hb.dflt, hb.sys, hb.dbl, fun hc => ?_⟩
        obtain ⟨k1, k2, k3, k4, k5, k6, k7, k8, k9, k10⟩ := hb.mp hc
        refine ⟨k1, ?_, k3, k4, k5, k6, k7, k8, k9, k10⟩
        have hf := foldr_max_replicate b.nvars b.cur b.cur (le_refl _)
        have : b.corrected = b.cur := by
          unfold Tk.corrected
          rw [k3, k4, k5, hb.sys, k10]
          omega
        simp only [this]
      · exact hb
    have h2 := hcore b h1
    generalize (if q.corrected = true then
        { b with tent := List.replicate b.nvars b.corrected } else b) = d at h2
    split
    · refine ⟨h2.ge, h2.dflt, h2.sys, h2.dbl, fun hc => ?_⟩
      obtain ⟨k1, k2, k3, k4, k5, k6, k7, k8, k9, k10⟩ := h2.mp hc
      exact ⟨k2, k2, k3, k4, k5, k6, k7, k8, k9, k10⟩
    · exact h2

/-- The oracle answers the code can give: the next precision is at least double precision. -/
def Possible (passes : List Pass) : Prop := ∀ q ∈ passes, ∀ x ∈ q.next, 16 ≤ x.1

theorem coherent_track (R : ℕ → X → X) (c : Call X) (ok : Bool) (oks : List Bool)
    (passes : List Pass) (s : Tk X) (hp : 16 ≤ c.first) (hl : c.point.length = s.nvars)
    (hq : Possible passes) : Coherent (track R c ok oks passes s) := by
  unfold track
  have h0 := coherent_initialRefine R ok oks _ (coherent_begin R c s hp hl)
  generalize initialRefine R ok oks (begin R c s) = a at h0
  induction passes generalizing a with
  | nil => exact h0
  | cons q l ih =>
    exact ih (fun x hx => hq x (List.mem_cons_of_mem _ hx)) _
      (coherent_pass R a q h0 (hq q List.mem_cons_self))

/-- The members that only `TrackerLoopInitialization` (and the user) changes. -/
def kept (s : Tk X) : ℕ × MP X × Bool × ℕ := (s.initial, s.endHi, s.preserve, s.nvars)

theorem kept_changePrec (R : ℕ → X → X) (p : ℕ) (s : Tk X) :
    kept (changePrec R p s) = kept s := by
  unfold changePrec
  split
  · rfl
  split
  · rfl
  split <;> rfl

theorem kept_refineStored (R : ℕ → X → X) (ok : Bool) (s : Tk X) :
    kept (refineStored R ok s) = kept s := by
  unfold refineStored
  split
  · rfl
  · have h := kept_changePrec R s.time s
    dsimp only
    generalize changePrec R s.time s = a at h
    split <;> exact h

theorem kept_initialRefine (R : ℕ → X → X) (ok : Bool) (oks : List Bool) (s : Tk X) :
    kept (initialRefine R ok oks s) = kept s := by
  unfold initialRefine
  have h := kept_refineStored R ok s
  dsimp only
  generalize refineStored R ok s = a at h
  split
  · exact h
  · induction oks generalizing a with
    | nil => exact h
    | cons b oks ih =>
      apply ih
      rw [kept_refineStored, kept_changePrec, h]

theorem kept_begin (R : ℕ → X → X) (c : Call X) (s : Tk X) :
    kept (begin R c s) = (c.first, c.endTime.setPrec R c.first, s.preserve, s.nvars) := by
  unfold begin
  dsimp only
  rw [kept_changePrec, kept_changePrec]
  split <;> rfl

theorem kept_pass (R : ℕ → X → X) (s : Tk X) (q : Pass) : kept (pass R s q) = kept s := by
  have key : ∀ a : Tk X, kept
      (let s := match q.next with
        | none => a
        | some (p, src) => changePrec R p { a with step := src.prec a }
      if q.accepted then { s with time := max s.time s.dt } else s) = kept a := by
    intro a
    cases q.next with
    | none =>
      dsimp only
      split <;> rfl
    | some x =>
      have h := kept_changePrec R x.1 { a with step := x.2.prec a }
      dsimp only
      generalize changePrec R x.1 { a with step := x.2.prec a } = b at h
      split <;> exact h
  unfold pass
  refine (key _).trans ?_
  dsimp only
  split
  · rfl
  · cases q.predicted <;> cases q.corrected <;> cases q.accepted <;> rfl

theorem kept_track (R : ℕ → X → X) (c : Call X) (ok : Bool) (oks : List Bool)
    (passes : List Pass) (s : Tk X) :
    kept (track R c ok oks passes s) =
      (c.first, c.endTime.setPrec R c.first, s.preserve, s.nvars) := by
  unfold track
  have h := (kept_initialRefine R ok oks (begin R c s)).trans (kept_begin R c s)
  generalize initialRefine R ok oks (begin R c s) = a at h
  induction passes generalizing a with
  | nil => exact h
  | cons q l ih => exact ih _ ((kept_pass R a q).trans h)

/-- **C126.** Whatever state the tracker, the system and the default precision were in, whatever
predictor, corrector and precision formulas return: from the end of the initialisation of `TrackPath`
on, after each pass of the loop, and after the call, the default precision, the precision of the
system and the tracker's current precision are the same number, and while that is above double
precision all numbers held by the tracker, predictor and corrector have it. In particular every
coordinate of the current point, and of the solution returned, has the current precision. -/
theorem C126 (R : ℕ → X → X) (c : Call X) (ok : Bool) (oks : List Bool) (passes : List Pass)
    (s : Tk X) (hp : 16 ≤ c.first) (hl : c.point.length = s.nvars) (hq : Possible passes) :
    Coherent (track R c ok oks passes s) ∧
    (∀ x ∈ currentPoint (track R c ok oks passes s), x = (track R c ok oks passes s).cur) ∧
    Coherent (trackPath R c ok oks passes s) := by
  have h := coherent_track R c ok oks passes s hp hl hq
  refine ⟨h, ?_, ?_⟩
  · intro x hx
    unfold currentPoint at hx
    split at hx
    · rw [List.eq_of_mem_replicate hx, h.dflt]
    · next hne =>
      have hc : 16 < (track R c ok oks passes s).cur := by have := h.ge; omega
      rw [(h.mp hc).1] at hx
      exact List.eq_of_mem_replicate hx
  · have hi : (track R c ok oks passes s).initial = c.first :=
      congrArg Prod.fst (kept_track R c ok oks passes s)
    unfold trackPath cleanup
    split
    · exact coherent_changePrec R _ (by omega) _ h
    · exact h

/-! ### Examples of runs

A path of a system of two variables starting in double precision on a tracker used at 40 digits
before: raised to 20 and 30 digits by the corrector, accepted there, then lowered again. -/

/-- Rounding towards minus infinity to `p` binary places. -/
def floorTo (p : ℕ) (x : ℚ) : ℚ := ⌊x * 2 ^ p⌋ / 2 ^ p

def sampleCall : Call ℚ := ⟨30, ⟨1 / 2, 30⟩, [16, 16], true, true⟩

def sampleUp : List Pass :=
  [⟨false, true, true, false, some (20, .scaled)⟩, ⟨false, true, true, true, some (30, .critB)⟩]

def samplePasses : List Pass := sampleUp ++ [⟨true, true, true, true, some (16, .same)⟩]

example : 16 ≤ sampleCall.first ∧ sampleCall.point.length = (make (0 : ℚ) 40 50 2).nvars ∧
    Possible samplePasses ∧
    (track floorTo sampleCall true [] sampleUp (make 0 40 50 2)).cur = 30 ∧
    (track floorTo sampleCall true [] sampleUp (make 0 40 50 2)).space = [30, 30] ∧
    (track floorTo sampleCall false [false, true] [] (make 0 40 50 2)).cur = 30 ∧
    (track floorTo sampleCall true [] samplePasses (make 0 40 50 2)).cur = 16 ∧
    (track floorTo sampleCall true [] samplePasses (make 0 40 50 2)).time = 30 := by
  refine ⟨by decide, by decide, ?_, by decide +kernel, by decide +kernel, by decide +kernel,
    by decide +kernel, by decide +kernel⟩
  intro q hq x hx
  simp [samplePasses, sampleUp] at hq
  rcases hq with rfl | rfl | rfl <;> simp at hx <;> subst hx <;> decide

/-! ### The end time -/

/-- What is used of rounding: a rounded number is representable, and stays so with more digits. -/
structure Rounding (R : ℕ → X → X) : Prop where
  idem : ∀ p x, R p (R p x) = R p x
  nested : ∀ p q x, p ≤ q → R p x = x → R q x = x

theorem floorTo_rounding : Rounding floorTo where
  idem := by
    intro p x
    have h2 : (2 : ℚ) ^ p ≠ 0 := by positivity
    simp only [floorTo]
    rw [div_mul_cancel₀ _ h2, Int.floor_intCast]
  nested := by
    intro p q x hpq h
    have h2 : (2 : ℚ) ^ p ≠ 0 := by positivity
    have h3 : (2 : ℚ) ^ q ≠ 0 := by positivity
    simp only [floorTo] at h ⊢
    have e : x * 2 ^ q = ((⌊x * 2 ^ p⌋ * 2 ^ (q - p) : ℤ) : ℚ) := by
      have : (2 : ℚ) ^ q = 2 ^ p * 2 ^ (q - p) := by rw [← pow_add]; congr 1; omega
      conv_lhs => rw [← h, this]
      push_cast
      field_simp
    rw [e, Int.floor_intCast, ← e, mul_div_assoc, div_self h3, mul_one]

/-- **C127** in full: while a path is tracked, the time at which tracking will stop is the end time
that was asked for, rounded to the precision the tracker is working in. -/
def C127_full : Prop :=
  ∀ (X : Type) (R : ℕ → X → X) (_ : Rounding R) (c : Call X) (ok : Bool) (oks : List Bool)
    (passes : List Pass) (s : Tk X), 16 ≤ c.first → c.point.length = s.nvars → Possible passes →
    R c.endTime.prec c.endTime.val = c.endTime.val →
    (track R c ok oks passes s).endt.val = R (track R c ok oks passes s).cur c.endTime.val

/-- How the end time in use relates to the stored one. -/
def EndInv (R : ℕ → X → X) (s : Tk X) : Prop :=
  (16 < s.cur → s.endt.val = R s.cur s.endHi.val) ∧
  (s.cur = 16 → s.endt.val = R 16 s.endHi.val ∨
    ∃ q, 16 < q ∧ s.endt.val = R 16 (R q s.endHi.val))

theorem endInv_changePrec (R : ℕ → X → X) (p : ℕ) (hp : 16 ≤ p) (s : Tk X) (h : EndInv R s) :
    EndInv R (changePrec R p s) := by
  unfold changePrec
  split
  · exact h
  split
  next h1 h2 =>
    refine ⟨fun hc => absurd hc (lt_irrefl 16), fun _ => Or.inr ⟨s.cur, h2.2, ?_⟩⟩
    show R 16 s.endt.val = _
    rw [h.1 h2.2]
    rfl
  split
  next h3 =>
    refine ⟨fun _ => rfl, fun hc => ?_⟩
    have : p = 16 := hc
    omega
  next h1 h2 h3 =>
    refine ⟨fun _ => rfl, fun hc => ?_⟩
    have hc : p = 16 := hc
    left
    rw [← hc]
    rfl

theorem endInv_congr (R : ℕ → X → X) (s a : Tk X) (h1 : a.cur = s.cur) (h2 : a.endt = s.endt)
    (h3 : a.endHi = s.endHi) (h : EndInv R s) : EndInv R a := by
  unfold EndInv
  rw [h1, h2, h3]
  exact h

theorem endInv_refineStored (R : ℕ → X → X) (ok : Bool) (s : Tk X) (hs : Coherent s)
    (h : EndInv R s) : EndInv R (refineStored R ok s) := by
  unfold refineStored
  split
  · exact h
  next hne =>
    have hc : 16 < s.cur := by have := hs.ge; omega
    have h4 := (hs.mp hc).2.2.2.1
    have hch : changePrec R s.time s = s := by unfold changePrec; rw [if_pos h4]
    rw [hch]
    dsimp only
    split <;> exact endInv_congr R s _ rfl rfl rfl h

theorem endInv_track (R : ℕ → X → X) (c : Call X) (ok : Bool) (oks : List Bool)
    (passes : List Pass) (s : Tk X) (hp : 16 ≤ c.first) (hl : c.point.length = s.nvars)
    (hq : Possible passes) : EndInv R (track R c ok oks passes s) := by
  have hb : Coherent (begin R c s) ∧ EndInv R (begin R c s) := by
    refine ⟨coherent_begin R c s hp hl, ?_⟩
    unfold begin
    dsimp only
    apply endInv_changePrec R _ hp
    apply endInv_changePrec R _ hp
    split
    next h16 =>
      refine ⟨fun hc => absurd hc (lt_irrefl 16), fun _ => Or.inl rfl⟩
    next h16 =>
      refine ⟨fun _ => rfl, fun hc => absurd hc h16⟩
  have hi : Coherent (initialRefine R ok oks (begin R c s)) ∧
      EndInv R (initialRefine R ok oks (begin R c s)) := by
    refine ⟨coherent_initialRefine R ok oks _ hb.1, ?_⟩
    unfold initialRefine
    have h0 := coherent_refineStored R ok _ hb.1
    have h1 := endInv_refineStored R ok _ hb.1 hb.2
    dsimp only
    generalize refineStored R ok (begin R c s) = a at h0 h1
    split
    · exact h1
    · induction oks generalizing a with
      | nil => exact h1
      | cons b oks ih =>
        have hge := h0.ge
        have h16 : 16 ≤ (if a.cur = 16 then 20 else a.cur + 10) := by split <;> omega
        have hc := coherent_changePrec R _ h16 _ h0
        exact ih _ (coherent_refineStored R b _ hc)
          (endInv_refineStored R b _ hc (endInv_changePrec R _ h16 _ h1))
  unfold track
  obtain ⟨h0, h1⟩ := hi
  generalize initialRefine R ok oks (begin R c s) = a at h0 h1
  induction passes generalizing a with
  | nil => exact h1
  | cons q l ih =>
    refine ih (fun x hx => hq x (List.mem_cons_of_mem _ hx)) _
      (coherent_pass R a q h0 (hq q List.mem_cons_self)) ?_
    have key : ∀ b : Tk X, EndInv R b → EndInv R
        (let s := match q.next with
          | none => b
          | some (p, src) => changePrec R p { b with step := src.prec b }
        if q.accepted then { s with time := max s.time s.dt } else s) := by
      intro b hb
      have hm : EndInv R (match q.next with
          | none => b
          | some (p, src) => changePrec R p { b with step := src.prec b }) := by
        cases hn : q.next with
        | none => exact hb
        | some x =>
          obtain ⟨p, src⟩ := x
          exact endInv_changePrec R p (hq q List.mem_cons_self (p, src) (by rw [hn]; rfl)) _
            (endInv_congr R b _ rfl rfl rfl hb)
      generalize (match q.next with
          | none => b
          | some (p, src) => changePrec R p { b with step := src.prec b }) = d at hm
      dsimp only
      split
      · exact endInv_congr R d _ rfl rfl rfl hm
      · exact hm
    unfold pass
    refine key _ ?_
    dsimp only
    split
    · exact endInv_congr R a _ rfl rfl rfl h1
    · cases q.predicted <;> cases q.corrected <;> cases q.accepted <;>
        exact endInv_congr R a _ rfl rfl rfl h1

/-- **C127, partial.** If the end time is representable in the precision of the start point, then
whenever the tracker works in multiple precision it tracks to the end time rounded to the current
precision; if the end time is representable in double precision (such as 0), it is always exactly the
end time that is tracked to. Missing: end times with more digits than the start point, see
`C127_refuted`. -/
theorem C127_partial (R : ℕ → X → X) (hR : Rounding R) (c : Call X) (ok : Bool) (oks : List Bool)
    (passes : List Pass) (s : Tk X) (hp : 16 ≤ c.first) (hl : c.point.length = s.nvars)
    (hq : Possible passes) :
    (R c.first c.endTime.val = c.endTime.val → 16 < (track R c ok oks passes s).cur →
      (track R c ok oks passes s).endt.val =
        R (track R c ok oks passes s).cur c.endTime.val) ∧
    (R 16 c.endTime.val = c.endTime.val →
      (track R c ok oks passes s).endt.val = c.endTime.val) := by
  have h := endInv_track R c ok oks passes s hp hl hq
  have hco := coherent_track R c ok oks passes s hp hl hq
  have hk : (track R c ok oks passes s).endHi.val = R c.first c.endTime.val := by
    have := congrArg (fun x => x.2.1.val) (kept_track R c ok oks passes s)
    exact this
  generalize track R c ok oks passes s = a at *
  constructor
  · intro he hc
    rw [h.1 hc, hk, he]
  · intro he
    have hall : ∀ q, 16 ≤ q → R q c.endTime.val = c.endTime.val :=
      fun q hq => hR.nested 16 q _ hq he
    rw [hall _ hp] at hk
    by_cases hc : a.cur = 16
    · rcases h.2 hc with h' | ⟨q, hq, h'⟩
      · rw [h', hk, he]
      · rw [h', hk, hall q hq.le, he]
    · have : 16 < a.cur := by have := hco.ge; omega
      rw [h.1 this, hk, hall _ this.le]

example : floorTo sampleCall.first sampleCall.endTime.val = sampleCall.endTime.val ∧
    floorTo 16 sampleCall.endTime.val = sampleCall.endTime.val ∧
    (track floorTo sampleCall true [] samplePasses (make 0 40 50 2)).endt.val = 1 / 2 := by
  refine ⟨by decide +kernel, by decide +kernel, by decide +kernel⟩

/-- **C127 refuted**, for every rounding and every end time that needs more digits than the start
point has: if the tracker raises the precision to what the end time was given in, the path is still
tracked to the end time cut to the digits of the start point. -/
theorem C127_cut (R : ℕ → X → X) (hR : Rounding R) (zero e : X) (p : ℕ) (hp : 16 < p)
    (he : R p e = e) (hne : R 16 e ≠ e) :
    ∃ (c : Call X) (passes : List Pass) (s : Tk X), c.endTime = ⟨e, p⟩ ∧ 16 ≤ c.first ∧
      c.point.length = s.nvars ∧ Possible passes ∧ (track R c true [] passes s).cur = p ∧
      (track R c true [] passes s).endt.val ≠ R p e := by
  refine ⟨⟨p, ⟨e, p⟩, [16], true, false⟩, [⟨false, true, true, false, some (p, .scaled)⟩],
    make zero 16 16 1, rfl, le_refl _, rfl, ?_, ?_, ?_⟩
  · intro q hq x hx
    simp only [List.mem_singleton] at hq
    subst hq
    simp only [Option.mem_def, Option.some.injEq] at hx
    subst hx
    exact hp.le
  · have := cur_changePrec R p
    simp only [track, List.foldl_cons, List.foldl_nil, pass]
    exact cur_changePrec R p _
  · intro hc
    have hpos : Possible [(⟨false, true, true, false, some (p, .scaled)⟩ : Pass)] := by
      intro q hq x hx
      simp only [List.mem_singleton] at hq
      subst hq
      simp only [Option.mem_def, Option.some.injEq] at hx
      subst hx
      exact hp.le
    have hcur : (track R ⟨p, ⟨e, p⟩, [16], true, false⟩ true []
        [⟨false, true, true, false, some (p, .scaled)⟩] (make zero 16 16 1)).cur = p := by
      simp only [track, List.foldl_cons, List.foldl_nil, pass]
      exact cur_changePrec R p _
    have h := endInv_track R ⟨p, ⟨e, p⟩, [16], true, false⟩ true []
      [⟨false, true, true, false, some (p, .scaled)⟩] (make zero 16 16 1) (le_refl _) rfl hpos
    have hk : (track R ⟨p, ⟨e, p⟩, [16], true, false⟩ true []
        [⟨false, true, true, false, some (p, .scaled)⟩] (make zero 16 16 1)).endHi.val = R 16 e :=
      congrArg (fun x => x.2.1.val) (kept_track R ⟨p, ⟨e, p⟩, [16], true, false⟩ true []
        [⟨false, true, true, false, some (p, .scaled)⟩] (make zero 16 16 1))
    have h1 := h.1 (by rw [hcur]; exact hp)
    rw [hcur, hk, hR.nested 16 p _ hp.le (hR.idem 16 e)] at h1
    rw [h1, he] at hc
    exact hne hc

theorem C127_refuted : ¬ C127_full := by
  intro hf
  have he : floorTo 30 (1 / 2 ^ 20) = 1 / 2 ^ 20 := by decide +kernel
  have hne : floorTo 16 (1 / 2 ^ 20) ≠ 1 / 2 ^ 20 := by decide +kernel
  obtain ⟨c, passes, s, h1, h2, h3, h4, h5, h6⟩ :=
    C127_cut floorTo floorTo_rounding 0 (1 / 2 ^ 20) 30 (by decide) he hne
  apply h6
  rw [hf ℚ floorTo floorTo_rounding c true [] passes s h2 h3 h4 (by rw [h1]; exact he), h5, h1]

/-! ### Preservation of precision -/

/-- **C128** in full, from the documentation of `PrecisionPreservation` and `CopyFinalSolution`
(amp_tracker.hpp 385-388, 564-569): with preservation on, the precision of the ambient workspace
is returned to its previous state once tracking is done, and the solution has the initial
precision. -/
def C128_full : Prop :=
  ∀ (X : Type) (R : ℕ → X → X) (c : Call X) (ok : Bool) (oks : List Bool) (passes : List Pass)
    (s : Tk X), 16 ≤ c.first → c.point.length = s.nvars → Possible passes → s.preserve = true →
    (trackPath R c ok oks passes s).dflt = s.dflt ∧
    ∀ x ∈ currentPoint (track R c ok oks passes s), x = c.first

/-- **C128, partial.** With preservation on, on every way out of `TrackPath` the default precision,
the tracker and the system are at the precision of the start point; so the default precision is
restored if it was that of the start point. With preservation off they stay at the precision reached,
which is in both cases the precision of the solution. Missing: the default precision if it differed
from that of the start point, and the precision of the solution, see `C128_refuted`. -/
theorem C128_partial (R : ℕ → X → X) (c : Call X) (ok : Bool) (oks : List Bool)
    (passes : List Pass) (s : Tk X) (hp : 16 ≤ c.first) (hl : c.point.length = s.nvars)
    (hq : Possible passes) :
    (s.preserve = true → (trackPath R c ok oks passes s).cur = c.first ∧
      (trackPath R c ok oks passes s).dflt = c.first ∧
      (trackPath R c ok oks passes s).sys = c.first) ∧
    (s.preserve = false → trackPath R c ok oks passes s = track R c ok oks passes s) ∧
    (∀ x ∈ currentPoint (track R c ok oks passes s), x = (track R c ok oks passes s).cur) := by
  obtain ⟨h1, h2, h3⟩ := C126 R c ok oks passes s hp hl hq
  have hk := kept_track R c ok oks passes s
  have hi : (track R c ok oks passes s).initial = c.first := congrArg Prod.fst hk
  have hpr : (track R c ok oks passes s).preserve = s.preserve :=
    congrArg (fun x => x.2.2.1) hk
  refine ⟨fun hs => ?_, fun hs => ?_, h2⟩
  · have hc : (trackPath R c ok oks passes s).cur = c.first := by
      unfold trackPath cleanup
      rw [hpr, hs, hi]
      exact cur_changePrec R _ _
    exact ⟨hc, h3.dflt.trans hc, h3.sys.trans hc⟩
  · unfold trackPath cleanup
    rw [hpr, hs]
    rfl

/-- A tracker with preservation switched on (`PrecisionPreservation(true)`). -/
def preserving (dflt sys n : ℕ) : Tk ℚ := { make 0 dflt sys n with preserve := true }

example : (preserving 40 50 2).preserve = true ∧
    (trackPath floorTo sampleCall true [] sampleUp (preserving 40 50 2)).cur = 16 ∧
    (trackPath floorTo sampleCall true [] sampleUp (make 0 40 50 2)).cur = 30 := by
  refine ⟨rfl, by decide +kernel, by decide +kernel⟩

/-- The default precision was 40 and is 16 afterwards; the solution has 30 digits, not 16. -/
theorem C128_refuted : ¬ C128_full ∧
    (trackPath floorTo sampleCall true [] sampleUp (preserving 40 50 2)).dflt ≠
      (preserving 40 50 2).dflt ∧
    currentPoint (track floorTo sampleCall true [] sampleUp (preserving 40 50 2)) = [30, 30] := by
  have h1 : (trackPath floorTo sampleCall true [] sampleUp (preserving 40 50 2)).dflt ≠
      (preserving 40 50 2).dflt := by decide +kernel
  refine ⟨fun hf => ?_, h1, by decide +kernel⟩
  refine h1 (hf ℚ floorTo sampleCall true [] sampleUp (preserving 40 50 2) (by decide) rfl ?_
    rfl).1
  intro q hq x hx
  simp [sampleUp] at hq
  rcases hq with rfl | rfl <;> simp at hx <;> subst hx <;> decide

/-- The documentation says precision is preserved by default. It is not: a tracker on which
`PrecisionPreservation` has not been called leaves the default precision where tracking ended, here
at 30 although it was 16, like the start point's. -/
theorem C128_default_refuted :
    (trackPath floorTo sampleCall true [] sampleUp (make 0 16 16 2)).dflt = 30 := by
  decide +kernel

/-! ### Refining a point -/

/-- **C129** in full: a tracker can refine a point of any precision, provided time and point have
the same one; default precision and system are then at that precision. -/
def C129_full : Prop :=
  ∀ (X : Type) (R : ℕ → X → X) (zero : X) (dflt sys n p : ℕ) (pts : List ℕ), 16 ≤ dflt →
    16 ≤ p → pts.length = n → 0 < n → (∀ x ∈ pts, x = p) →
    ∃ s, refine R p pts (make zero dflt sys n) = some s ∧ s.dflt = p ∧ s.sys = p

/-- **C129, partial.** After any call of `TrackPath` (or more generally in a coherent state) `Refine`
works for every precision, and everything is then at the precision of the point. On a tracker that
has not tracked yet it works exactly if the point has the precision that was the default precision
when the tracker was made and the system also has that precision. -/
theorem C129_partial (R : ℕ → X → X) :
    (∀ (s : Tk X) (p : ℕ) (pts : List ℕ), Coherent s → 16 ≤ p → (∀ x ∈ pts, x = p) →
      ∃ s', refine R p pts s = some s' ∧ Coherent s' ∧ s'.cur = p) ∧
    (∀ (zero : X) (dflt sys n p : ℕ) (pts : List ℕ), pts.length = n → 0 < n →
      (∀ x ∈ pts, x = p) →
      ((refine R p pts (make zero dflt sys n)).isSome ↔ p = dflt ∧ sys = dflt)) := by
  constructor
  · intro s p pts hs hp hpts
    have h1 : pts.all (fun x => decide (x = p)) = true := by
      rw [List.all_eq_true]
      intro x hx
      exact decide_eq_true (hpts x hx)
    have h2 : storedOk p s = true := by
      unfold storedOk
      by_cases hc : s.cur = 16
      · simp [hc, hs.dbl hc]
      · have : 16 < s.cur := by have := hs.ge; omega
        simp [hc, (hs.mp this).1]
    have hco := coherent_changePrec R p hp s hs
    have hcur := cur_changePrec R p s
    refine ⟨changePrec R p s, ?_, hco, hcur⟩
    unfold refine
    rw [h1, h2]
    simp only [Bool.and_self, if_true]
    rw [if_pos (hco.sys.trans hcur)]
  · intro zero dflt sys n p pts hl hn hpts
    have h1 : pts.all (fun x => decide (x = p)) = true := by
      rw [List.all_eq_true]
      intro x hx
      exact decide_eq_true (hpts x hx)
    have h2 : storedOk p (make zero dflt sys n) = decide (p = dflt) := by
      unfold storedOk make
      have : ¬ (0 = n) := by omega
      simp [this]
    unfold refine
    rw [h1, h2]
    by_cases hpd : p = dflt
    · subst hpd
      have : changePrec R p (make zero p sys n) = make zero p sys n := by
        unfold changePrec
        exact if_pos rfl
      simp only [Bool.true_and, decide_true, if_true, this]
      by_cases hsys : sys = p
      · simp [make, hsys]
      · simp [make, hsys]
    · simp [hpd]

example : Coherent (trackPath floorTo sampleCall true [] sampleUp (make 0 40 50 2)) ∧
    (refine floorTo 50 [50, 50]
      (trackPath floorTo sampleCall true [] sampleUp (make 0 40 50 2))).isSome = true ∧
    (refine floorTo 30 [30, 30] (make 0 30 30 2)).isSome = true := by
  refine ⟨(C126 floorTo sampleCall true [] sampleUp (make 0 40 50 2) (by decide) rfl ?_).2.2,
    by decide +kernel, by decide +kernel⟩
  intro q hq x hx
  simp [sampleUp] at hq
  rcases hq with rfl | rfl <;> simp at hx <;> subst hx <;> decide

/-- A system made at 16 digits, a tracker made at default precision 30: a point of 30 digits cannot
be refined. -/
theorem C129_refuted : ¬ C129_full := by
  intro hf
  obtain ⟨s, hs, _⟩ := hf ℚ floorTo 0 30 16 2 30 [30, 30] (by decide) (by decide) rfl (by decide)
    (by decide)
  have := ((C129_partial floorTo).2 0 30 16 2 30 [30, 30] rfl (by decide) (by decide)).1
    (by rw [hs]; rfl)
  omega

end B2.Track.Coh
