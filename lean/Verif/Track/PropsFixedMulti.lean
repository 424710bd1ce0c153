import Verif.Track.FixedMulti

/-!
# C168: a fixed multiple precision tracker works at its precision
-/

namespace B2.Track.Fix

/-- Everything the tracker computes with has precision `p`. -/
structure FT.Uniform (s : FT) (p : ℕ) : Prop where
  dflt : s.dflt = p
  prec : s.prec = p
  sys : s.sys = p
  tab : s.tab = p
  pred : s.pred = p
  jx0 : s.jx0 = p
  jxt : s.jxt = p
  jt : s.jt = p
  space : ∀ q ∈ s.space, q = p
  tent : ∀ q ∈ s.tent, q = p
  temp : ∀ q ∈ s.temp, q = p
  time : s.time = p
  endt : s.endt = p
  dt : s.dt = p
  step : s.step = p

/-- C168, full statement: a tracker made at default precision `p`, after any preparations, either
refuses a call (an exception or an assertion, at the start or on the way), or everything it computes
with has precision `p` at all times. -/
def C168_full : Prop :=
  ∀ (p sys n : ℕ) (slp asserts : Bool) (pre : List Prep) (m : Mix) (c : Call) (os : List Pass)
    (s : FT), track m c os (pre.foldl Prep.act (make p sys n slp asserts)) = some s → s.Uniform p

/-! ### Lemmas -/

theorem Mix.pick_const (m : Mix) {p : ℕ} {l : List ℕ} (hl : l ≠ []) (h : ∀ q ∈ l, q = p) (i : ℕ) :
    m.pick i l = p := h _ (m.mem i l hl)

theorem Mix.move_length (m : Mix) (s : FT) (x : List ℕ) (h : ℕ) (y : List ℕ) (t : ℕ) :
    (m.move s x h y t).length = x.length := by simp [Mix.move]

theorem Mix.move_const (m : Mix) {s : FT} {p : ℕ} {x y : List ℕ} {h t : ℕ} (hs : s.sys = p)
    (hx : ∀ q ∈ x, q = p) (hh : h ≤ p) (hy : ∀ q ∈ y, q = p) (ht : t = p) :
    ∀ q ∈ m.move s x h y t, q = p := by
  intro q hq
  simp only [Mix.move, List.mem_mapIdx] at hq
  obtain ⟨i, hi, rfl⟩ := hq
  rw [hx _ (List.getElem_mem hi), m.pick_const (p := p) (by simp) (by
    intro q hq
    simp only [List.mem_append, List.mem_cons, List.not_mem_nil, or_false] at hq
    rcases hq with h | rfl | rfl
    · exact hy _ h
    · exact ht
    · exact hs)]
  omega

theorem headD_const {p : ℕ} {x : List ℕ} (hx : ∀ q ∈ x, q = p) (h0 : x ≠ []) : x.headD 0 = p := by
  cases x with
  | nil => exact absurd rfl h0
  | cons a x => simpa using hx a (by simp)

theorem evalOk_const {s : FT} {p : ℕ} {x : List ℕ} {t : ℕ} (hs : s.sys = p)
    (hl : x.length = s.nvars) (h0 : x ≠ []) (hx : ∀ q ∈ x, q = p) (ht : t = p) :
    evalOk s x t = true := by
  have ha : (x.all (· == s.sys)) = true := by
    rw [List.all_eq_true]
    intro q hq
    simp [hx q hq, hs]
  simp only [evalOk, hl, headD_const hx h0, hs, ht, beq_self_eq_true, Bool.true_and]
  rw [hs] at ha
  simp [ha]

theorem ne_nil_of_length {x y : List ℕ} (h : x.length = y.length) (hy : y ≠ []) : x ≠ [] := by
  cases x with
  | nil => cases y with
    | nil => exact absurd rfl hy
    | cons => simp at h
  | cons => simp

theorem Mix.first_const (m : Mix) {p k t q : ℕ} {l : List ℕ} (h : ∀ q ∈ l, q = p) (ht : t = p)
    (hq : q = p) : m.first k (l ++ [t, q]) = p := by
  have := m.first_mem k (l ++ [t, q]) (by simp)
  simp only [List.mem_append, List.mem_cons, List.not_mem_nil, or_false] at this
  rcases this with h' | h' | h'
  · exact h _ h'
  · exact h'.trans ht
  · exact h'.trans hq

theorem Uniform.sane {s : FT} {p : ℕ} (h : s.Uniform p) : Fix.sane s = true := by
  simp [Fix.sane, h.pred, h.dflt, h.jt, h.jx0, h.jxt, h.tab]

theorem Uniform.stage0 {s : FT} {p : ℕ} (h : s.Uniform p) (hl : s.space.length = s.nvars)
    (h0 : s.space ≠ []) (m : Mix) : ∃ s', stage0 m s = some s' ∧ s'.Uniform p ∧
      s'.space = s.space ∧ s'.nvars = s.nvars := by
  have hf : ∀ k, m.first k (s.space ++ [s.time, s.sys]) = p := fun k =>
    m.first_const h.space h.time h.sys
  refine ⟨{ s with jx0 := m.first 0 (s.space ++ [s.time, s.sys]) }, ?_, ?_, rfl, rfl⟩
  · unfold Fix.stage0
    rw [if_pos, if_pos]
    · simp [hf, h.pred]
    · rw [Uniform.sane h, evalOk_const h.sys hl h0 h.space h.time, headD_const h.space h0, h.pred,
        h.time]
      simp
  · exact { h with jx0 := hf 0 }

/-- The later stages succeed and keep the precision. -/
theorem Uniform.stages {p : ℕ} (m : Mix) (n : ℕ) : ∀ {s : FT} {y : List ℕ} {t : ℕ}, s.Uniform p →
    s.space.length = s.nvars → s.space ≠ [] → (∀ q ∈ y, q = p) → t = p →
    ∃ s' y' t', stages m n y t s = some (s', y', t') ∧ (∀ q ∈ y', q = p) ∧ t' = p ∧
      s'.Uniform p ∧ s'.space = s.space ∧ s'.nvars = s.nvars := by
  induction n with
  | zero => exact fun h _ _ hy ht => ⟨_, _, _, rfl, hy, ht, h, rfl, rfl⟩
  | succ n ih =>
    intro s y t h hl h0 hy htt
    have hb := h.tab
    have hd := h.dt
    have ht := h.time
    have h1 := m.move_const (h := max s.tab s.dt) h.sys h.space (by omega) hy htt
    have h2 := m.move_length s s.space (max s.tab s.dt) y t
    have h3 : max s.time (max s.tab s.dt) = p := by omega
    simp only [Fix.stages]
    rw [if_pos (by rw [Uniform.sane h, evalOk_const h.sys (h2.trans hl) (ne_nil_of_length h2 h0) h1 h3]; rfl)]
    obtain ⟨s', y', t', g1, g2, g3, g4, g5, g6⟩ := ih (s := { s with
        jxt := m.first 0 (m.move s s.space (max s.tab s.dt) y t ++
          [max s.time (max s.tab s.dt), s.sys]),
        jt := m.first 2 (m.move s s.space (max s.tab s.dt) y t ++
          [max s.time (max s.tab s.dt), s.sys]) })
      { h with jxt := m.first_const h1 h3 h.sys, jt := m.first_const h1 h3 h.sys } hl h0 h1 h3
    exact ⟨s', y', t', g1, g2, g3, g4, g5, g6⟩

theorem newton_const (m : Mix) {s : FT} {p t : ℕ} (hs : s.sys = p) (ht : t = p) (n : ℕ) :
    ∀ {x : List ℕ}, x.length = s.nvars → x ≠ [] → (∀ q ∈ x, q = p) →
    ∃ x', newton m s t n x = some x' ∧ x'.length = s.nvars ∧ ∀ q ∈ x', q = p := by
  induction n with
  | zero => exact fun hl _ hx => ⟨_, rfl, hl, hx⟩
  | succ n ih =>
    intro x hl h0 hx
    have h1 := m.move_const (h := 0) hs hx (by omega) hx ht
    have h2 := m.move_length s x 0 x t
    simp only [newton]
    rw [if_pos (evalOk_const hs hl h0 hx ht)]
    exact ih (h2.trans hl) (ne_nil_of_length h2 h0) h1

theorem Uniform.shrink {s : FT} {p : ℕ} (h : s.Uniform p) : (shrink s).Uniform p :=
  { h with step := by have := h.dflt; have := h.step; simp only [Fix.shrink]; omega }

theorem Uniform.correct {s : FT} {p t : ℕ} {y : List ℕ} (h : s.Uniform p)
    (hl : s.space.length = s.nvars) (h0 : s.space ≠ []) (hy : ∀ q ∈ y, q = p) (ht : t = p)
    (m : Mix) (o : Pass) :
    ∃ s', correct m o y t s = some s' ∧ s'.Uniform p ∧ s'.space.length = s'.nvars ∧
      s'.nvars = s.nvars := by
  have hb := h.tab
  have hd := h.dt
  have htm := h.time
  have g1 := m.move_const (h := max s.tab s.dt) h.sys h.space (by omega) hy ht
  have g2 := m.move_length s s.space (max s.tab s.dt) y t
  have g3 : max s.time s.dt = p := by omega
  obtain ⟨x, e3, hxl, hx⟩ := newton_const m (t := max s.time s.dt) h.sys g3
    (if o.result = .success then o.newton + 1 else o.newton) (g2.trans hl)
    (ne_nil_of_length g2 h0) g1
  unfold Fix.correct
  dsimp only
  rw [e3]
  have hu : FT.Uniform { s with temp := m.move s s.space (max s.tab s.dt) y t, tent := x } p :=
    { h with temp := g1, tent := hx }
  cases hr : o.result with
  | success => exact ⟨_, rfl, { hu with space := hx, time := g3 }, hxl, rfl⟩
  | infinity => exact ⟨_, rfl, hu, hl, rfl⟩
  | corrector => exact ⟨_, rfl, Uniform.shrink hu, hl, rfl⟩
  | predictor b => exact ⟨_, rfl, Uniform.shrink hu, hl, rfl⟩

theorem Uniform.iteration {s : FT} {p : ℕ} (h : s.Uniform p) (hl : s.space.length = s.nvars)
    (h0 : s.space ≠ []) (m : Mix) (o : Pass) :
    ∃ s', iteration m o s = some s' ∧ s'.Uniform p ∧ s'.space.length = s'.nvars ∧
      s'.nvars = s.nvars := by
  obtain ⟨s1, e1, u1, f1, n1⟩ := Uniform.stage0 h hl h0 m
  have hl1 : s1.space.length = s1.nvars := by rw [f1, n1, hl]
  have h01 : s1.space ≠ [] := by rw [f1]; exact h0
  unfold Fix.iteration
  rw [e1, Option.bind_some]
  by_cases r1 : o.result = .predictor false
  · rw [if_pos r1]
    exact ⟨_, rfl, Uniform.shrink u1, hl1, n1⟩
  rw [if_neg r1]
  have u2 : FT.Uniform { s1 with jt := m.first 2 (s1.space ++ [s1.time, s1.sys]) } p :=
    { u1 with jt := m.first_const u1.space u1.time u1.sys }
  obtain ⟨s2, y, t, e2, hy, ht, u3, f3, n3⟩ := Uniform.stages m o.stages u2 hl1 h01 u1.space u1.time
  rw [e2, Option.bind_some]
  have hl3 : s2.space.length = s2.nvars := by rw [f3, n3]; exact hl1
  have h03 : s2.space ≠ [] := by rw [f3]; exact h01
  by_cases r2 : o.result = .predictor true
  · rw [if_pos r2]
    exact ⟨_, rfl, Uniform.shrink u3, hl3, n3.trans n1⟩
  rw [if_neg r2]
  obtain ⟨s3, e3, u4, l4, n4⟩ := Uniform.correct u3 hl3 h03 hy ht m o
  exact ⟨s3, e3, u4, l4, n4.trans (n3.trans n1)⟩

theorem Uniform.pass {s : FT} {p : ℕ} (h : s.Uniform p) (hl : s.space.length = s.nvars)
    (h0 : s.space ≠ []) (m : Mix) (o : Pass) :
    ∃ s', pass m o s = some s' ∧ s'.Uniform p ∧ s'.space.length = s'.nvars ∧
      s'.nvars = s.nvars := by
  have hd : nextDt o s = p := by
    have := h.endt
    have := h.time
    have := h.step
    unfold nextDt
    split <;> omega
  exact Uniform.iteration (s := { s with dt := nextDt o s }) { h with dt := hd } hl h0 m o

theorem Uniform.passes {p : ℕ} (m : Mix) (os : List Pass) : ∀ {s : FT}, s.Uniform p →
    s.space.length = s.nvars → s.space ≠ [] →
    ∃ s', passes m os s = some s' ∧ s'.Uniform p ∧ s'.space.length = s.nvars := by
  induction os with
  | nil => exact fun h hl _ => ⟨_, rfl, h, hl⟩
  | cons o os ih =>
    intro s h hl h0
    obtain ⟨s1, e, h1, h2, h3⟩ := Uniform.pass h hl h0 m o
    obtain ⟨s2, e2, h4, h5⟩ := ih h1 h2 (ne_nil_of_length (h2.trans (h3.trans hl.symm)) h0)
    exact ⟨s2, by rw [Fix.passes, e]; exact e2, h4, h5.trans h3⟩

/-- What the stages leave alone. -/
structure Same (s s' : FT) : Prop where
  prec : s'.prec = s.prec
  sys : s'.sys = s.sys
  asserts : s'.asserts = s.asserts
  slp : s'.slp = s.slp
  space : s'.space = s.space
  time : s'.time = s.time

theorem stage0_some {m : Mix} {s s' : FT} (h : stage0 m s = some s') : Same s s' ∧
    evalOk s s.space s.time = true := by
  unfold stage0 at h
  by_cases hk : (sane s && (!s.asserts || (s.space.headD 0 == s.pred && s.time == s.pred)) &&
      evalOk s s.space s.time) = true
  · rw [if_pos hk] at h
    dsimp only at h
    split at h
    · cases h
      refine ⟨⟨rfl, rfl, rfl, rfl, rfl, rfl⟩, ?_⟩
      rw [Bool.and_eq_true] at hk
      exact hk.2
    · cases h
  · rw [if_neg hk] at h
    cases h

theorem stages_same {m : Mix} (n : ℕ) : ∀ {s s' : FT} {y y' : List ℕ} {t t' : ℕ},
    stages m n y t s = some (s', y', t') → Same s s' := by
  induction n with
  | zero => intro s s' y y' t t' h; cases h; exact ⟨rfl, rfl, rfl, rfl, rfl, rfl⟩
  | succ n ih =>
    intro s s' y y' t t' h
    simp only [stages] at h
    split at h
    · have := ih h
      exact ⟨this.prec, this.sys, this.asserts, this.slp, this.space, this.time⟩
    · cases h

/-- An iteration that is not stopped: the system was evaluated at the current point, and either
nothing of interest changed or the corrector ran. -/
theorem iteration_cases {m : Mix} {o : Pass} {s s' : FT} (h : iteration m o s = some s') :
    evalOk s s.space s.time = true ∧ (Same s s' ∨
      ∃ s1 y t, Same s s1 ∧ correct m o y t s1 = some s') := by
  unfold iteration at h
  rw [Option.bind_eq_some_iff] at h
  obtain ⟨s1, e1, h⟩ := h
  obtain ⟨g1, g2⟩ := stage0_some e1
  refine ⟨g2, ?_⟩
  by_cases r1 : o.result = .predictor false
  · rw [if_pos r1] at h
    cases h
    exact Or.inl ⟨g1.prec, g1.sys, g1.asserts, g1.slp, g1.space, g1.time⟩
  rw [if_neg r1, Option.bind_eq_some_iff] at h
  obtain ⟨⟨s2, y, t⟩, e2, h⟩ := h
  have g3 := stages_same _ e2
  have g4 : Same s s2 := ⟨g3.prec.trans g1.prec, g3.sys.trans g1.sys, g3.asserts.trans g1.asserts,
    g3.slp.trans g1.slp, g3.space.trans g1.space, g3.time.trans g1.time⟩
  dsimp only at h
  by_cases r2 : o.result = .predictor true
  · rw [if_pos r2] at h
    cases h
    exact Or.inl ⟨g4.prec, g4.sys, g4.asserts, g4.slp, g4.space, g4.time⟩
  rw [if_neg r2] at h
  exact Or.inr ⟨s2, y, t, g4, h⟩

theorem correct_cases {m : Mix} {o : Pass} {y : List ℕ} {t : ℕ} {s s' : FT}
    (h : correct m o y t s = some s') : Same s s' ∨ (o.result = .success ∧ ∃ x n corr,
      newton m s (max s.time s.dt) (n + 1) x = some corr ∧ s'.prec = s.prec ∧ s'.sys = s.sys ∧
      s'.asserts = s.asserts ∧ s'.slp = s.slp ∧ s'.space = corr ∧ s'.time = max s.time s.dt) := by
  unfold correct at h
  simp only [Option.map_eq_some_iff] at h
  obtain ⟨corr, e, h⟩ := h
  cases hr : o.result with
  | success =>
    rw [hr] at h e
    rw [if_pos rfl] at e
    cases h
    exact Or.inr ⟨rfl, _, _, _, e, rfl, rfl, rfl, rfl, rfl, rfl⟩
  | infinity => rw [hr] at h; cases h; exact Or.inl ⟨rfl, rfl, rfl, rfl, rfl, rfl⟩
  | corrector => rw [hr] at h; cases h; exact Or.inl ⟨rfl, rfl, rfl, rfl, rfl, rfl⟩
  | predictor b => rw [hr] at h; cases h; exact Or.inl ⟨rfl, rfl, rfl, rfl, rfl, rfl⟩

theorem iteration_prec {m : Mix} {o : Pass} {s s' : FT} (h : iteration m o s = some s') :
    s'.prec = s.prec := by
  rcases (iteration_cases h).2 with h | ⟨s1, y, t, h, hc⟩
  · exact h.prec
  · rcases correct_cases hc with g | ⟨-, x, n, corr, -, g, -⟩
    · exact g.prec.trans h.prec
    · exact g.trans h.prec

theorem passes_prec {m : Mix} (os : List Pass) : ∀ {s s' : FT}, passes m os s = some s' →
    s'.prec = s.prec := by
  induction os with
  | nil => intro s s' h; cases h; rfl
  | cons o os ih =>
    intro s s' h
    rw [passes] at h
    cases hp : pass m o s with
    | none => rw [hp] at h; cases h
    | some s1 =>
      rw [hp] at h
      exact (ih h).trans (iteration_prec (s := { s with dt := nextDt o s }) hp)

theorem track_prec {m : Mix} {c : Call} {os : List Pass} {s s' : FT}
    (h : track m c os s = some s') : s'.prec = s.prec := by
  rw [track] at h
  cases hb : begin c s with
  | none => rw [hb] at h; cases h
  | some s1 =>
    rw [hb] at h
    rw [passes_prec os h]
    unfold begin at hb
    split_ifs at hb <;> cases hb <;> rfl

/-! ### Theorems -/

/-- C168, the correct use: the default precision, the system, the predictor and all the input have
the tracker's precision. Then no call is refused, whatever the outcomes on the way, and everything
has that precision after any number of passes. -/
theorem C168_partial (s : FT) (p : ℕ) (m : Mix) (c : Call) (os : List Pass) (h : s.Uniform p)
    (hl : c.point.length = s.nvars) (h0 : c.point ≠ []) (hp : ∀ q ∈ c.point, q = p)
    (h1 : c.startTime = p) (h2 : c.endTime = p) :
    ∃ s', track m c os s = some s' ∧ s'.Uniform p ∧ s'.space.length = s.nvars := by
  have hh := headD_const hp h0
  have e : begin c s = some { s with
    time := c.startTime, endt := c.endTime, space := c.point,
    step := if s.reinit then
        (if c.segment then max c.startTime c.endTime else s.dflt)
      else s.step } := by
    unfold begin
    rw [if_neg (by simpa using hl), if_neg (by rw [hh, h.dflt]; simp),
      if_neg (by rw [hh, h.prec]; simp), if_neg (by rw [h.dflt, h.prec]; simp)]
  rw [track, e]
  refine Uniform.passes m os (s := { s with
    time := c.startTime, endt := c.endTime, space := c.point,
    step := if s.reinit then
        (if c.segment then max c.startTime c.endTime else s.dflt)
      else s.step }) { h with space := hp, time := h1, endt := h2, step := ?_ } hl h0
  dsimp only
  have := h.dflt
  have := h.step
  split_ifs <;> omega

/-- A new tracker, its system having the precision current at construction, is in that state; and
whatever precision the system has and whatever is done to the tracker and the system later, the
tracker's precision remains the default precision at its construction. -/
theorem C168_new (p n : ℕ) (slp asserts : Bool) : (make p p n slp asserts).Uniform p ∧
    ∀ (sys : ℕ) (pre : List Prep) (m : Mix) (c : Call) (os : List Pass) (s : FT),
      (pre.foldl Prep.act (make p sys n slp asserts)).prec = p ∧
      (track m c os (pre.foldl Prep.act (make p sys n slp asserts)) = some s → s.prec = p) := by
  refine ⟨⟨rfl, rfl, rfl, rfl, rfl, rfl, rfl, rfl, by simp [make], by simp [make], by simp [make], rfl,
    rfl, rfl, rfl⟩,
    fun sys pre m c os s => ?_⟩
  have h : ∀ (pre : List Prep) (s : FT), (pre.foldl Prep.act s).prec = s.prec := by
    intro pre
    induction pre with
    | nil => exact fun _ => rfl
    | cons a pre ih =>
      intro s
      rw [List.foldl_cons, ih]
      cases a <;> rfl
  refine ⟨h pre _, fun ht => ?_⟩
  rw [track_prec ht]
  exact h pre _

/-- What is refused at the start: exactly a point of the wrong length, a first coordinate that does
not have the tracker's precision, and a default precision that is not the tracker's. -/
theorem C168_start (c : Call) (s : FT) :
    begin c s = none ↔ c.point.length ≠ s.nvars ∨ c.point.headD 0 ≠ s.prec ∨ s.dflt ≠ s.prec := by
  unfold begin
  by_cases h1 : c.point.length = s.nvars <;> by_cases h2 : c.point.headD 0 = s.prec <;>
    by_cases h3 : s.dflt = s.prec <;> simp [h1, h2, h3] <;> omega

theorem evalOk_iff (s : FT) (x : List ℕ) (t : ℕ) : evalOk s x t = true ↔
    x.length = s.nvars ∧ x.headD 0 = s.sys ∧
    (s.asserts = true → t = s.sys ∧ (s.slp = false → ∀ q ∈ x, q = s.sys)) ∧
    (s.slp = true → t = 16 ∨ t = s.sys) := by
  unfold evalOk
  cases s.asserts <;> cases s.slp <;> simp <;> tauto

/-- What is refused on the way: the first step is refused if the system does not have the tracker's
precision, or if a straight line program is evaluated at a time which has neither the system's
precision nor 16 digits. -/
theorem C168_first_step (m : Mix) (c : Call) (o : Pass) (os : List Pass) (s : FT)
    (h : s.sys ≠ s.prec ∨ s.slp = true ∧ c.startTime ≠ 16 ∧ c.startTime ≠ s.sys) :
    track m c (o :: os) s = none := by
  rw [track]
  cases hb : begin c s with
  | none => rfl
  | some s1 =>
    have hb2 : ¬ (c.point.length ≠ s.nvars ∨ c.point.headD 0 ≠ s.prec ∨ s.dflt ≠ s.prec) := by
      rw [← C168_start, hb]; simp
    push Not at hb2
    obtain ⟨b1, b2, b3⟩ := hb2
    have e : s1 = { s with
        time := c.startTime, endt := c.endTime, space := c.point,
        step := if s.reinit then
            (if c.segment then max c.startTime c.endTime else s.dflt)
          else s.step } := by
      unfold begin at hb
      rw [if_neg (by simpa using b1), if_neg (by rw [b2, b3]; simp), if_neg (by rw [b2]; simp),
        if_neg (by rw [b3]; simp)] at hb
      exact (Option.some.inj hb).symm
    have : pass m o s1 = none := by
      cases hp : pass m o s1 with
      | none => rfl
      | some s2 =>
        exfalso
        have hk := (iteration_cases (s := { s1 with dt := nextDt o s1 }) hp).1
        subst e
        rw [evalOk_iff] at hk
        obtain ⟨-, a, -, b⟩ := hk
        dsimp only at a b
        rcases h with h | ⟨h, h3, h4⟩
        · exact h (a.symm.trans b2)
        · rcases b h with b | b
          · exact h3 b
          · exact h4 b
    simp [passes, this]

theorem newton_checked (m : Mix) {s : FT} {t : ℕ} (ha : s.asserts = true) (hs : s.slp = false)
    (n : ℕ) : ∀ {x x' : List ℕ}, newton m s t (n + 1) x = some x' → t = s.sys ∧
      ∀ q ∈ x', q = s.sys := by
  have key : ∀ {x : List ℕ}, evalOk s x t = true → t = s.sys ∧
      ∀ q ∈ m.move s x 0 x t, q = s.sys := by
    intro x h
    have h' := (evalOk_iff _ _ _).1 h
    obtain ⟨h1, h2⟩ := h'.2.2.1 ha
    exact ⟨h1, m.move_const rfl (h2 hs) (by omega) (h2 hs) h1⟩
  induction n with
  | zero =>
    intro x x' h
    simp only [newton] at h
    split at h
    · next hk =>
      have := key hk
      cases h
      exact this
    · cases h
  | succ n ih =>
    intro x x' h
    rw [newton] at h
    split at h
    · exact ih h
    · cases h

theorem iteration_sys (m : Mix) {o : Pass} {s s' : FT} (h : iteration m o s = some s') :
    s'.sys = s.sys ∧ s'.asserts = s.asserts ∧ s'.slp = s.slp ∧
    (s.asserts = true → s.slp = false → (∀ q ∈ s.space, q = s.sys) ∧ s.time = s.sys ∧
      (∀ q ∈ s'.space, q = s.sys) ∧ s'.time = s.sys) := by
  obtain ⟨hk, h⟩ := iteration_cases h
  have hk' := (evalOk_iff _ _ _).1 hk
  have hsp : s.asserts = true → s.slp = false → (∀ q ∈ s.space, q = s.sys) ∧ s.time = s.sys :=
    fun ha hs => ⟨(hk'.2.2.1 ha).2 hs, (hk'.2.2.1 ha).1⟩
  have hsame : ∀ {s' : FT}, Same s s' → s'.sys = s.sys ∧ s'.asserts = s.asserts ∧
      s'.slp = s.slp ∧ (s.asserts = true → s.slp = false → (∀ q ∈ s.space, q = s.sys) ∧
        s.time = s.sys ∧ (∀ q ∈ s'.space, q = s.sys) ∧ s'.time = s.sys) := fun g =>
    ⟨g.sys, g.asserts, g.slp, fun ha hs => ⟨(hsp ha hs).1, (hsp ha hs).2,
      by rw [g.space]; exact (hsp ha hs).1, by rw [g.time]; exact (hsp ha hs).2⟩⟩
  rcases h with h | ⟨s1, y, t, h, hc⟩
  · exact hsame h
  rcases correct_cases hc with g | ⟨-, x, n, corr, e, -, g2, g3, g4, g5, g6⟩
  · exact hsame ⟨g.prec.trans h.prec, g.sys.trans h.sys, g.asserts.trans h.asserts,
      g.slp.trans h.slp, g.space.trans h.space, g.time.trans h.time⟩
  · refine ⟨g2.trans h.sys, g3.trans h.asserts, g4.trans h.slp, fun ha hs => ?_⟩
    obtain ⟨k1, k2⟩ := newton_checked m (h.asserts.trans ha) (h.slp.trans hs) n e
    exact ⟨(hsp ha hs).1, (hsp ha hs).2, by rw [g5, ← h.sys]; exact k2, by rw [g6, k1, h.sys]⟩

theorem pass_sys (m : Mix) {o : Pass} {s s' : FT} (h : pass m o s = some s') :
    s'.sys = s.sys ∧ s'.asserts = s.asserts ∧ s'.slp = s.slp ∧
    (s.asserts = true → s.slp = false → (∀ q ∈ s.space, q = s.sys) ∧ s.time = s.sys ∧
      (∀ q ∈ s'.space, q = s.sys) ∧ s'.time = s.sys) :=
  iteration_sys m (s := { s with dt := nextDt o s }) h

theorem passes_sys (m : Mix) (os : List Pass) : ∀ {s s' : FT}, passes m os s = some s' →
    s.asserts = true → s.slp = false → (∀ q ∈ s.space, q = s.sys) → s.time = s.sys →
    (∀ q ∈ s'.space, q = s.sys) ∧ s'.time = s.sys := by
  induction os with
  | nil =>
    intro s s' h _ _ h1 h2
    cases h
    exact ⟨h1, h2⟩
  | cons o os ih =>
    intro s s' h ha hs h1 h2
    rw [passes] at h
    cases hp : pass m o s with
    | none => rw [hp] at h; cases h
    | some s1 =>
      rw [hp] at h
      obtain ⟨g1, g2, g3, g4⟩ := pass_sys m hp
      obtain ⟨-, -, g5, g6⟩ := g4 ha hs
      have := ih h (g2.trans ha) (g3.trans hs) (by rw [g1]; exact g5) (g6.trans g1.symm)
      rw [g1] at this
      exact this

/-- With assertions compiled in and evaluation by function trees the inputs need not be assumed
uniform: whatever was passed in, if the tracker got through at least one pass of the loop without
being stopped, then all coordinates of the start point had the tracker's precision and so do all
coordinates of the current point, and the time. -/
theorem C168_checked (m : Mix) (c : Call) (o : Pass) (os : List Pass) (s s' : FT)
    (ha : s.asserts = true) (hs : s.slp = false) (h : track m c (o :: os) s = some s') :
    (∀ q ∈ c.point, q = s.prec) ∧ c.startTime = s.prec ∧
    (∀ q ∈ s'.space, q = s.prec) ∧ s'.time = s.prec := by
  have hsys : s.sys = s.prec := by
    by_contra hc
    rw [C168_first_step m c o os s (Or.inl hc)] at h
    cases h
  rw [track] at h
  cases hb : begin c s with
  | none => rw [hb] at h; cases h
  | some s1 =>
    rw [hb] at h
    have e : s1.sys = s.sys ∧ s1.asserts = s.asserts ∧ s1.slp = s.slp ∧ s1.space = c.point ∧
        s1.time = c.startTime := by
      unfold begin at hb
      split_ifs at hb <;> cases hb <;> exact ⟨rfl, rfl, rfl, rfl, rfl⟩
    obtain ⟨e1, e2, e3, e4, e5⟩ := e
    change passes m (o :: os) s1 = some s' at h
    have h' := h
    rw [passes] at h
    cases hp : pass m o s1 with
    | none => rw [hp] at h; cases h
    | some s2 =>
      obtain ⟨g1, g2, g3, g4⟩ := pass_sys m hp
      obtain ⟨k1, k2, -, -⟩ := g4 (e2.trans ha) (e3.trans hs)
      have := passes_sys m (o :: os) h' (e2.trans ha) (e3.trans hs) k1 k2
      rw [e1, hsys] at this k1 k2
      rw [e4] at k1
      rw [e5] at k2
      exact ⟨k1, k2, this.1, this.2⟩

/-- With assertions compiled in, a predictor whose table does not have the tracker's precision is
noticed at the first step. -/
theorem C168_table_checked (m : Mix) (c : Call) (o : Pass) (os : List Pass) (s s' : FT)
    (ha : s.asserts = true) (h : track m c (o :: os) s = some s') : s.tab = s.prec := by
  rw [track] at h
  cases hb : begin c s with
  | none => rw [hb] at h; cases h
  | some s1 =>
    have hb2 : ¬ (c.point.length ≠ s.nvars ∨ c.point.headD 0 ≠ s.prec ∨ s.dflt ≠ s.prec) := by
      rw [← C168_start, hb]; simp
    push Not at hb2
    have e : s1.asserts = s.asserts ∧ s1.tab = s.tab ∧ s1.pred = s.pred ∧ s1.dflt = s.dflt := by
      unfold begin at hb
      split_ifs at hb <;> cases hb <;> exact ⟨rfl, rfl, rfl, rfl⟩
    rw [hb, Option.bind_some, passes, Option.bind_eq_some_iff] at h
    obtain ⟨s2, hp, -⟩ := h
    unfold pass iteration at hp
    rw [Option.bind_eq_some_iff] at hp
    obtain ⟨s3, hp, -⟩ := hp
    unfold stage0 at hp
    by_cases hk : sane { s1 with dt := nextDt o s1 } = true
    · simp only [sane, e.1, ha, e.2.1, e.2.2.1, e.2.2.2, Bool.not_true, Bool.false_or,
        Bool.and_eq_true, beq_iff_eq] at hk
      rw [hk.2, hk.1.1.1.1, hb2.2.2]
    · rw [Bool.not_eq_true] at hk
      rw [if_neg (by simp [hk])] at hp
      cases hp

/-- The step size is computed again at the start of each call: whatever precision was given to
`SetStepSize`, and whatever a call before left, it is not used, unless the user switched this off. -/
theorem C168_step (p n : ℕ) (slp asserts : Bool) (qs : List ℕ) (m : Mix) (c : Call) (os : List Pass)
    (hl : c.point.length = n) (h0 : c.point ≠ []) (hp : ∀ q ∈ c.point, q = p)
    (h1 : c.startTime = p) (h2 : c.endTime = p) :
    ∃ s', track m c os ((qs.map Prep.stepSize).foldl Prep.act (make p p n slp asserts)) = some s' ∧
      s'.Uniform p := by
  have key : ∀ (qs : List ℕ) (s : FT), s.reinit = true →
      begin c ((qs.map Prep.stepSize).foldl Prep.act s) = begin c s := by
    intro qs
    induction qs with
    | nil => exact fun _ _ => rfl
    | cons q qs ih =>
      intro s hs
      rw [List.map_cons, List.foldl_cons, ih (Prep.act s (.stepSize q)) hs]
      simp only [Prep.act, begin, hs, if_true]
  obtain ⟨s', e, u, -⟩ := C168_partial (make p p n slp asserts) p m c os (C168_new p n slp asserts).1
    hl h0 hp h1 h2
  rw [track] at e
  exact ⟨s', by rw [track, key qs _ rfl, e], u⟩

/-- After failures in the first stage only the step size may have changed, and it has the precision of
the default or of itself, whichever is larger. -/
theorem pass_first {m : Mix} {o : Pass} {s s' : FT} (ho : o.result = .predictor false)
    (h : pass m o s = some s') : s'.sys = s.sys ∧ s'.space = s.space ∧ s'.time = s.time ∧ s'.endt = s.endt ∧
      s'.dflt = s.dflt ∧ s'.step = max s.dflt s.step := by
  unfold pass iteration at h
  rw [Option.bind_eq_some_iff] at h
  obtain ⟨s1, e1, h⟩ := h
  rw [if_pos ho] at h
  cases h
  unfold stage0 at e1
  split_ifs at e1 with h1
  dsimp only at e1
  split_ifs at e1 with h2
  cases e1
  exact ⟨rfl, rfl, rfl, rfl, rfl, rfl⟩

theorem stages_keep {m : Mix} (n : ℕ) : ∀ {s s' : FT} {y y' : List ℕ} {t t' : ℕ},
    stages m n y t s = some (s', y', t') → s'.sys = s.sys ∧ s'.space = s.space ∧ s'.dt = s.dt := by
  induction n with
  | zero => intro s s' y y' t t' h; cases h; exact ⟨rfl, rfl, rfl⟩
  | succ n ih =>
    intro s s' y y' t t' h
    simp only [stages] at h
    split_ifs at h
    have := ih h
    exact this

theorem pass_big {m : Mix} {o : Pass} {s : FT} (h0 : s.space ≠ []) (ho : o.result = .success)
    (h : s.sys < nextDt o s) : pass m o s = none := by
  cases hp : pass m o s with
  | none => rfl
  | some s' =>
    exfalso
    unfold pass iteration at hp
    rw [Option.bind_eq_some_iff] at hp
    obtain ⟨s1, e1, hp⟩ := hp
    rw [if_neg (by rw [ho]; simp), Option.bind_eq_some_iff] at hp
    obtain ⟨⟨s2, y, t⟩, e2, hp⟩ := hp
    rw [if_neg (by rw [ho]; simp)] at hp
    have g1 : s1.sys = s.sys ∧ s1.space = s.space ∧ s1.dt = nextDt o s := by
      unfold stage0 at e1
      split_ifs at e1
      dsimp only at e1
      split_ifs at e1
      cases e1
      exact ⟨rfl, rfl, rfl⟩
    obtain ⟨k1, k2, k3⟩ := stages_keep _ e2
    dsimp only at k1 k2 k3 hp
    have hx : s2.space ≠ [] := by rw [k2, g1.2.1]; exact h0
    have hd : s2.sys < s2.dt := by rw [k1, k3, g1.1, g1.2.2]; exact h
    unfold correct at hp
    simp only [ho, if_true, Option.map_eq_some_iff] at hp
    obtain ⟨corr, e, -⟩ := hp
    rw [newton] at e
    split_ifs at e with he
    have h1 := ((evalOk_iff _ _ _).1 he).2.1
    cases hs : s2.space with
    | nil => exact hx hs
    | cons a l =>
      rw [hs] at h1
      simp only [Mix.move, List.mapIdx_cons, List.headD_cons] at h1
      omega

/-- Numbers with more digits than the tracker's precision: an end time with more digits, or (if the
step size is not computed again) a step size with more digits, is not noticed at the start; but no step
succeeds with it: the first step which would (for the step size: which is not cut to the time that is
left) is refused, because the point predicted has those digits too. Failures of the first stage before
it do not change this. -/
theorem C168_digits (p q n : ℕ) (slp asserts : Bool) (hq : p < q) (m : Mix) (x : List ℕ) (e : ℕ)
    (segment : Bool) (os os' : List Pass) (o : Pass) (hos : ∀ o ∈ os, o.result = .predictor false)
    (ho : o.result = .success) :
    ((x.length = n ∧ x ≠ [] ∧ ∀ q ∈ x, q = p) → e = q →
      begin ⟨p, e, x, segment⟩ (make p p n slp asserts) ≠ none ∧
      track m ⟨p, e, x, segment⟩ (os ++ o :: os') (make p p n slp asserts) = none) ∧
    ((x.length = n ∧ x ≠ [] ∧ ∀ q ∈ x, q = p) → e = p → o.cut = false →
      begin ⟨p, e, x, segment⟩ ([.stepSize q, .reinit false].foldl Prep.act (make p p n slp asserts)) ≠ none ∧
      track m ⟨p, e, x, segment⟩ (os ++ o :: os')
        ([.stepSize q, .reinit false].foldl Prep.act (make p p n slp asserts)) = none) := by
  have key : ∀ (os : List Pass), (∀ o ∈ os, o.result = .predictor false) → ∀ s : FT,
      s.sys = p → s.space ≠ [] → (s.endt = q ∨ s.step = q ∧ s.dflt = p ∧ o.cut = false) →
      passes m (os ++ o :: os') s = none := by
    intro os
    induction os with
    | nil =>
      intro _ s hs h0 h
      have hn : s.sys < nextDt o s := by
        unfold nextDt
        rcases h with h | ⟨h, -, hc⟩
        · split_ifs <;> omega
        · rw [if_neg (by simp [hc])]; omega
      rw [List.nil_append, passes, pass_big h0 ho hn]
      rfl
    | cons o1 os ih =>
      intro hall s hs h0 h
      rw [List.cons_append, passes]
      cases hp : pass m o1 s with
      | none => rfl
      | some s1 =>
        obtain ⟨k1, k2, k3, k4, k5, k6⟩ := pass_first (hall o1 List.mem_cons_self) hp
        rw [Option.bind_some]
        refine ih (fun o h => hall o (List.mem_cons_of_mem _ h)) s1 (k1.trans hs) (by rw [k2]; exact h0) ?_
        rcases h with h | ⟨h, hd, hc⟩
        · exact Or.inl (k4.trans h)
        · refine Or.inr ⟨?_, k5.trans hd, hc⟩
          rw [k6]; omega
  have hb : ∀ s : FT, s.nvars = n → s.dflt = p → s.prec = p → (x.length = n ∧ x ≠ [] ∧ ∀ q ∈ x, q = p) →
      begin ⟨p, e, x, segment⟩ s ≠ none := by
    intro s h1 h2 h3 ⟨h4, h5, h6⟩
    have := headD_const h6 h5
    rw [ne_eq, C168_start]
    dsimp only
    rw [this, h4, h1, h2, h3]
    simp
  constructor
  · rintro hx rfl
    refine ⟨hb _ rfl rfl rfl hx, ?_⟩
    rw [track]
    cases hbb : begin ⟨p, e, x, segment⟩ (make p p n slp asserts) with
    | none => rfl
    | some s =>
      unfold begin at hbb
      split_ifs at hbb
      all_goals
        cases hbb
        exact key os hos _ rfl hx.2.1 (Or.inl rfl)
  · rintro hx rfl hc
    refine ⟨hb _ rfl rfl rfl hx, ?_⟩
    rw [track]
    cases hbb : begin ⟨e, e, x, segment⟩
        ([.stepSize q, .reinit false].foldl Prep.act (make e e n slp asserts)) with
    | none => rfl
    | some s =>
      unfold begin at hbb
      split_ifs at hbb
      all_goals
        cases hbb
        first
          | exact key os hos _ rfl hx.2.1 (Or.inr ⟨rfl, rfl, hc⟩)
          | (rename_i hr _; cases hr)
          | (rename_i hr; cases hr)

/-! ### Refutations -/

/-- Each entry of a solution depends on its own coordinate only, as for a diagonal system. -/
def diag : Mix where
  pick i l := if h : i < l.length then l[i] else l.headD 0
  mem i l h := by
    split
    · exact List.getElem_mem _
    · cases l with
      | nil => exact absurd rfl h
      | cons => simp
  first _ l := l.headD 0
  first_mem _ l h := by
    cases l with
    | nil => exact absurd rfl h
    | cons => simp

/-- Only the first coordinate of the start point is looked at: with a straight line program a point
whose second coordinate has another precision is tracked, and the current point keeps that other
precision. -/
theorem C168_refuted : ¬ C168_full := by
  intro H
  have h := H 30 30 2 true true [] diag ⟨30, 30, [30, 50], false⟩ [⟨false, 3, 0, .success⟩] _ rfl
  have := h.space 50 (by decide)
  omega

/-- The predictor's coefficients have the precision which was the default when the predictor was
chosen: choosing it at another default precision leaves them with fewer digits, and without
assertions tracking is not refused. -/
theorem C168_table_refuted : ¬ ∀ (p n : ℕ) (slp asserts : Bool) (pre : List Prep) (m : Mix)
    (c : Call) (os : List Pass) (s : FT), c.startTime = p → c.endTime = p → (∀ q ∈ c.point, q = p) →
    track m c os (pre.foldl Prep.act (make p p n slp asserts)) = some s → s.tab = p := by
  intro H
  have h := H 30 1 true false [.dflt 20, .predictor, .dflt 30] diag ⟨30, 30, [30], false⟩
    [⟨false, 3, 0, .success⟩] _ rfl rfl (by decide) rfl
  revert h
  decide

/-! ### Instances -/

/-- A step size of 16 digits set at 30 digits. -/
example : ∃ s', track diag ⟨30, 30, [30, 30], false⟩ [⟨false, 3, 1, .success⟩]
    ((Prep.stepSize 16).act (make 30 30 2 true true)) = some s' ∧ s'.Uniform 30 :=
  C168_step 30 2 true true [16] diag _ _ rfl (by decide) (by decide) rfl rfl

/-- An end time of 50 digits at 30 digits. -/
example : begin ⟨30, 50, [30, 30], false⟩ (make 30 30 2 true false) ≠ none ∧
    track diag ⟨30, 50, [30, 30], false⟩ [⟨false, 3, 0, .predictor false⟩, ⟨false, 0, 1, .success⟩]
      (make 30 30 2 true false) = none :=
  (C168_digits 30 50 2 true false (by omega) diag [30, 30] 50 false [⟨false, 3, 0, .predictor false⟩] [] _
    (by simp) rfl).1 ⟨rfl, by decide, by decide⟩ rfl

/-- Two steps of a four stage predictor in three variables at 40 digits, the first one failing. -/
example : ∃ s', track diag ⟨40, 40, [40, 40, 40], true⟩
    [⟨false, 3, 1, .corrector⟩, ⟨true, 3, 2, .success⟩] (make 40 40 3 true true) = some s' ∧
    s'.Uniform 40 ∧ s'.space.length = 3 :=
  C168_partial _ 40 _ _ _ (C168_new 40 3 true true).1 rfl (by decide) (by decide) rfl rfl

example : begin ⟨30, 30, [50, 30], false⟩ (make 30 30 2 true true) = none :=
  (C168_start _ _).2 (by decide)

example : track diag ⟨50, 30, [30, 30], false⟩ [⟨false, 3, 1, .success⟩] (make 30 30 2 true false)
    = none := C168_first_step _ _ _ _ _ (by decide)

example : ∃ s', track diag ⟨30, 30, [30, 30], false⟩ [⟨false, 3, 1, .success⟩]
    (make 30 30 2 false true) = some s' ∧ s'.time = 30 := by
  obtain ⟨s', h, -⟩ := C168_partial (make 30 30 2 false true) 30 diag ⟨30, 30, [30, 30], false⟩
    [⟨false, 3, 1, .success⟩] (C168_new 30 2 false true).1 rfl (by decide) (by decide) rfl rfl
  exact ⟨s', h, (C168_checked _ _ _ _ _ _ rfl rfl h).2.2.2⟩

/-- The predictor of this tracker was chosen at 20 digits: with assertions no step is made. -/
example (m : Mix) (os : List Pass) : track m ⟨30, 30, [30], false⟩ (⟨false, 3, 0, .success⟩ :: os)
    ([.dflt 20, .predictor, .dflt 30].foldl Prep.act (make 30 30 1 true true)) = none := by
  cases h : track m ⟨30, 30, [30], false⟩ (⟨false, 3, 0, .success⟩ :: os)
      ([.dflt 20, .predictor, .dflt 30].foldl Prep.act (make 30 30 1 true true)) with
  | none => rfl
  | some s' => exact absurd (C168_table_checked _ _ _ _ _ _ rfl h) (by decide)

end B2.Track.Fix
