import Verif.Alg.Settings

/-!
# Property C164: settings take effect in the next solve
-/

namespace B2.Alg.Conf

open B2.Alg

variable {d : ℕ}

/-- The value written last by calls of a kind, `a` if there is none. -/
def last {α : Type} (f : Op → Option α) (a : α) (ops : List Op) : α := ops.foldl (fun a o => (f o).getD a) a

/-- The settings a user asked for: those written last, the defaults otherwise. -/
def asked (D : Dflt) (ops : List Op) : Settings where
  tol := last (fun | .tol t => some t | _ => none) D.tol ops
  post := last (fun | .post p => some p | _ => none) D.post ops
  zd := last (fun | .zd z => some z | _ => none) D.zd ops
  retrack := last (fun | .retrack f => some f | _ => none) D.retrack ops
  mid := last (fun | .mid m => some m | _ => none) D.mid ops
  tr :=
    { predictor := last (fun | .trPredictor p => some p | _ => none) D.predictor ops
      tol := (last (fun | .tol t => some t | _ => none) D.tol ops).before
      trunc := last (fun | .trTrunc t => some t | _ => none) D.tol.trunc ops
      stepping := last (fun | .trStepping n => some n | _ => none) D.stepping ops
      newton := last (fun | .trNewton n => some n | _ => none) D.newton ops
      precision := last (fun | .trPrecision n => some n | _ => none) D.precision ops }
  eg := last (fun | .eg e => some e | _ => none) D.eg ops
  path := D.zd.name

/-- The same, with the final tolerance and the truncation threshold of `TolerancesConfig` passed on to the endgame and
the tracker, and the name of the path variable to the homotopy. -/
def wanted (D : Dflt) (ops : List Op) : Settings :=
  { asked D ops with
    tr := { (asked D ops).tr with
      trunc := last (fun | .tol t => some t.trunc | .trTrunc t => some t | _ => none) D.tol.trunc ops }
    eg := { (asked D ops).eg with
      final := last (fun | .tol t => some t.final | .eg e => some e.final | _ => none) D.eg.final ops }
    path := (asked D ops).zd.name }

/-- The calls that restore defaults. -/
def IsDefault : Op → Prop
  | .defaultSettings | .defaultSystem | .defaultTracker | .defaultMidpath => True
  | _ => False

/-- The calls of a solve with the settings `a`: start points in the precision `a.zd.prec`; tracking from the start time to
the endgame boundary with the settings of the tracker, except that the tolerance `t` is given; the endgame from the
boundary to the target time, with `a.tol.during` as tolerance of the tracker, and the settings of the endgame. -/
def calls (L : Low d) (a : Settings) : ZEnv d where
  start := fun i => L.start a.zd.prec i
  track := fun k t x =>
    L.track k ⟨a.tr.predictor, t, a.tr.trunc, a.tr.stepping, a.tr.newton, a.tr.precision⟩ a.zd.start a.zd.bdry x
  endgame := fun k x =>
    L.endgame k ⟨a.tr.predictor, a.tol.during, a.tr.trunc, a.tr.stepping, a.tr.newton, a.tr.precision⟩ a.eg a.zd.bdry
      a.zd.target x

/-- The settings of the algorithm itself: first tolerance, tolerance for crossed paths, tolerance for equal points, number
of attempts to track crossed paths again, factor for the tolerance of these. -/
def params (a : Settings) : ZCfg := ⟨a.tol.before, a.mid, a.post.same, a.zd.attempts, a.retrack⟩

/-- A solve uses the settings asked for. -/
def C164_full : Prop :=
  ∀ (d N : ℕ) (D : Dflt) (L : Low d) (ops : List Op) (s s' : St d), (∀ o ∈ ops, ¬ IsDefault o) →
    runOps D N L (init D) ops = some s → Op.solve.run D N L s = some s' →
    s'.z = solve N (calls L (wanted D ops)) (params (wanted D ops)) s.z

theorem last_nil {α : Type} (f : Op → Option α) (a : α) : last f a [] = a := rfl

theorem last_snoc {α : Type} (f : Op → Option α) (a : α) (ops : List Op) (o : Op) :
    last f a (ops ++ [o]) = (f o).getD (last f a ops) := by
  unfold last
  rw [List.foldl_append]
  rfl

theorem runOps_snoc (D : Dflt) (N : ℕ) (L : Low d) (s : St d) (ops : List Op) (o : Op) :
    runOps D N L s (ops ++ [o]) = (runOps D N L s ops).bind fun s' => o.run D N L s' := by
  induction ops generalizing s with
  | nil =>
    rw [List.nil_append, runOps, runOps, Option.bind_some]
    rcases h : Op.run D N L s o with _ | s'
    · rfl
    · rfl
  | cons a ops ih =>
    rw [List.cons_append, runOps, runOps, Option.bind_assoc]
    congr 1
    funext s'
    exact ih s'

/-- The settings of a solver are those asked for, but for the tolerance of the tracker. -/
def Keeps (D : Dflt) (ops : List Op) (c : Settings) : Prop :=
  c = { asked D ops with tr := { (asked D ops).tr with tol := c.tr.tol } }

theorem solveOp_c {N : ℕ} {L : Low d} {s s' : St d} (h : solveOp N L s = some s') :
    s'.c = { s.c with tr := { s.c.tr with tol := s.c.tol.during } } ∧ s'.z = solve N (env L s.c) (cfg s.c) s.z := by
  unfold solveOp at h
  dsimp only at h
  split_ifs at h
  rw [Option.some.injEq] at h
  subst h
  exact ⟨rfl, rfl⟩

theorem keeps (D : Dflt) (N : ℕ) (L : Low d) (ops : List Op) (hd : ∀ o ∈ ops, ¬ IsDefault o) :
    ∀ s, runOps D N L (init D) ops = some s → Keeps D ops s.c := by
  induction ops using List.reverseRecOn with
  | nil =>
    intro s hs
    rw [runOps, Option.some.injEq] at hs
    subst hs
    rfl
  | append_singleton ops o ih =>
    intro s hs
    rw [runOps_snoc] at hs
    rcases h1 : runOps D N L (init D) ops with _ | s1
    · rw [h1] at hs; cases hs
    rw [h1, Option.bind_some] at hs
    have hk := ih (fun o ho => hd o (List.mem_append_left _ ho)) s1 h1
    have ho := hd o (List.mem_append_right _ (List.mem_singleton_self o))
    unfold Keeps at hk ⊢
    cases o with
    | defaultSettings => exact absurd trivial ho
    | defaultSystem => exact absurd trivial ho
    | defaultTracker => exact absurd trivial ho
    | defaultMidpath => exact absurd trivial ho
    | solve =>
      rw [(solveOp_c hs).1]
      simp only [asked, last_snoc] at hk ⊢
      rw [hk]
      rfl
    | trTol t =>
      rw [Op.run] at hs
      split_ifs at hs
      rw [Option.some.injEq] at hs
      subst hs
      simp only [asked, last_snoc] at hk ⊢
      rw [hk]
      rfl
    | trTrunc t =>
      rw [Op.run] at hs
      split_ifs at hs
      rw [Option.some.injEq] at hs
      subst hs
      simp only [asked, last_snoc] at hk ⊢
      rw [hk]
      rfl
    | _ =>
      rw [Op.run, Option.some.injEq] at hs
      subst hs
      simp only [asked, last_snoc] at hk ⊢
      rw [hk]
      rfl

theorem env_tol (L : Low d) (c : Settings) (t : ℝ) : env L { c with tr := { c.tr with tol := t } } = env L c := rfl

theorem cfg_tol (c : Settings) (t : ℝ) : cfg { c with tr := { c.tr with tol := t } } = cfg c := rfl

/-- **C164.** After any program of setters and solves, a solve uses the settings set last (by default the default ones):
tolerances before and during the endgame, times, ambient precision, attempts and factor for retracking, tolerances of the
midpath check and of multiplicities, and the settings of the endgame and (but for its tolerance) of the tracker. It does
not throw if the two tolerances are positive, and the factor is positive or no path may be retracked; it throws if one of
the two tolerances is not positive. -/
theorem C164_partial (D : Dflt) (N : ℕ) (L : Low d) (ops : List Op) (s : St d) (hd : ∀ o ∈ ops, ¬ IsDefault o)
    (hs : runOps D N L (init D) ops = some s) :
    (∀ s', Op.solve.run D N L s = some s' → s'.z = solve N (calls L (asked D ops)) (params (asked D ops)) s.z) ∧
    (0 < (asked D ops).tol.before → 0 < (asked D ops).tol.during → 0 < (asked D ops).retrack ∨ (asked D ops).zd.attempts = 0 →
      ∃ s', Op.solve.run D N L s = some s') ∧
    ((asked D ops).tol.before ≤ 0 ∨ (asked D ops).tol.during ≤ 0 → Op.solve.run D N L s = none) := by
  have hk := keeps D N L ops hd s hs
  unfold Keeps at hk
  have e1 : s.c.tol = (asked D ops).tol := by rw [hk]
  have e2 : s.c.retrack = (asked D ops).retrack := by rw [hk]
  have e3 : s.c.zd = (asked D ops).zd := by rw [hk]
  refine ⟨?_, ?_, ?_⟩
  · intro s' h
    rw [(solveOp_c h).2, hk, env_tol, cfg_tol]
    rfl
  · intro h1 h2 h3
    rw [← e1] at h1 h2
    rw [← e2, ← e3] at h3
    have h4 : ∀ p : Prop, ¬ (p ∧ 0 < s.c.zd.attempts ∧ s.c.tol.before * s.c.retrack ≤ 0) := by
      rintro p ⟨-, h5, h4⟩
      rcases h3 with h3 | h3
      · exact absurd h4 (not_le.2 (mul_pos h1 h3))
      · omega
    exact ⟨_, by rw [Op.run, solveOp, if_neg (not_le.2 h1)]; dsimp only; rw [if_neg (h4 _), if_neg (not_le.2 h2)]⟩
  · intro h
    rw [← e1] at h
    rw [Op.run, solveOp]
    by_cases h1 : s.c.tol.before ≤ 0
    · rw [if_pos h1]
    · rw [if_neg h1]
      dsimp only
      split_ifs with h2 h3
      · rfl
      · rfl
      · exact absurd (h.resolve_left h1) h3

/-- A call without the settings that are not used: the final tolerance, the truncation threshold, the thresholds for real
and finite points, the name of the path variable; `none` for the tolerance of the tracker. -/
def forget : Op → Option Op
  | .tol t => some (.tol ⟨t.before, t.during, 0, 0⟩)
  | .post p => some (.post ⟨0, 0, p.same⟩)
  | .zd z => some (.zd { z with name := 0 })
  | .trTol _ => none
  | o => some o

/-- Settings up to those. -/
def Same (c c' : Settings) : Prop :=
  c.tol.before = c'.tol.before ∧ c.tol.during = c'.tol.during ∧ c.post.same = c'.post.same ∧
    { c.zd with name := 0 } = { c'.zd with name := 0 } ∧ c.retrack = c'.retrack ∧ c.mid = c'.mid ∧
    { c.tr with tol := 0 } = { c'.tr with tol := 0 } ∧ c.eg = c'.eg

theorem same_env {c c' : Settings} (h : Same c c') (L : Low d) : env L c = env L c' ∧ cfg c = cfg c' := by
  obtain ⟨⟨a1, a2, a3, a4⟩, ⟨b1, b2, b3⟩, ⟨z1, z2, z3, z4, z5, z6⟩, r, m, ⟨t1, t2, t3, t4, t5, t6⟩, e, p⟩ := c
  obtain ⟨⟨a1', a2', a3', a4'⟩, ⟨b1', b2', b3'⟩, ⟨z1', z2', z3', z4', z5', z6'⟩, r', m', ⟨t1', t2', t3', t4', t5', t6'⟩, e', p'⟩ := c'
  simp only [Same, ZD.mk.injEq, Tr.mk.injEq] at h
  obtain ⟨rfl, rfl, rfl, ⟨rfl, rfl, rfl, rfl, rfl, -⟩, rfl, rfl, ⟨rfl, -, rfl, rfl, rfl, rfl⟩, rfl⟩ := h
  exact ⟨rfl, rfl⟩

theorem same_solve {s r s' : St d} {N : ℕ} {L : Low d} (hc : Same s.c r.c) (hz : s.z = r.z)
    (h : solveOp N L s = some s') : ∃ r', solveOp N L r = some r' ∧ Same s'.c r'.c ∧ s'.z = r'.z := by
  have he := same_env hc L
  obtain ⟨c1, c2, -, c4, c5, -⟩ := id hc
  have c6 : s.c.zd.attempts = r.c.zd.attempts := by
    simp only [ZD.mk.injEq] at c4
    exact c4.2.1
  obtain ⟨k1, k2⟩ := solveOp_c h
  unfold solveOp at h ⊢
  dsimp only at h ⊢
  rw [he.1, he.2, c1, c2, c5, c6, hz] at h
  split_ifs at h with h1 h2 h3
  rw [if_neg h1, if_neg h2, if_neg h3]
  refine ⟨_, rfl, ?_, ?_⟩
  · rw [k1]
    obtain ⟨d1, d2, d3, d4, d5, d6, d7, d8⟩ := hc
    refine ⟨d1, d2, d3, d4, d5, d6, ?_, d8⟩
    exact d7
  · rw [k2, he.1, he.2, hz]

/-- Programs on solvers with the same settings up to the unused ones. -/
theorem unused_run (D : Dflt) (N : ℕ) (L : Low d) (ops : List Op) (hd : ∀ o ∈ ops, ¬ IsDefault o) :
    ∀ s r s' : St d, Same s.c r.c → s.z = r.z → runOps D N L s ops = some s' →
      ∃ r', runOps D N L r (ops.filterMap forget) = some r' ∧ Same s'.c r'.c ∧ s'.z = r'.z := by
  induction ops with
  | nil =>
    intro s r s' hc hz h
    rw [runOps, Option.some.injEq] at h
    subst h
    exact ⟨r, rfl, hc, hz⟩
  | cons o ops ih =>
    intro s r s' hc hz h
    rw [runOps] at h
    rcases h1 : o.run D N L s with _ | s1
    · rw [h1] at h; cases h
    rw [h1, Option.bind_some] at h
    have ih' := ih fun o ho => hd o (List.mem_cons_of_mem _ ho)
    have ho := hd o List.mem_cons_self
    -- one call
    have step : ∀ o', forget o = some o' → (∃ r1, o'.run D N L r = some r1 ∧ Same s1.c r1.c ∧ s1.z = r1.z) →
        ∃ r', runOps D N L r ((o :: ops).filterMap forget) = some r' ∧ Same s'.c r'.c ∧ s'.z = r'.z := by
      rintro o' hf ⟨r1, e1, e2, e3⟩
      rw [List.filterMap_cons_some hf, runOps, e1, Option.bind_some]
      exact ih' s1 r1 s' e2 e3 h
    obtain ⟨d1, d2, d3, d4, d5, d6, d7, d8⟩ := id hc
    cases o with
    | defaultSettings => exact absurd trivial ho
    | defaultSystem => exact absurd trivial ho
    | defaultTracker => exact absurd trivial ho
    | defaultMidpath => exact absurd trivial ho
    | solve => exact step .solve rfl (same_solve hc hz h1)
    | trTol t =>
      rw [Op.run] at h1
      split_ifs at h1
      rw [Option.some.injEq] at h1
      subst h1
      rw [List.filterMap_cons_none rfl]
      refine ih' _ r s' ?_ ?_ h
      · exact ⟨d1, d2, d3, d4, d5, d6, d7, d8⟩
      · exact hz
    | trTrunc t =>
      rw [Op.run] at h1
      split_ifs at h1 with ht
      rw [Option.some.injEq] at h1
      subst h1
      refine step (.trTrunc t) rfl ⟨{ r with c := { r.c with tr := { r.c.tr with trunc := t } } },
        (by rw [Op.run, if_neg ht]), ⟨d1, d2, d3, d4, d5, d6, ?_, d8⟩, hz⟩
      simp only [Tr.mk.injEq] at d7 ⊢
      tauto
    | _ =>
      rw [Op.run, Option.some.injEq] at h1
      subst h1
      refine step _ rfl ⟨_, rfl, ?_, hz⟩
      simp only [Same, Tr.mk.injEq, true_and, and_true] at hc ⊢
      tauto

/-- **C164 (no effect).** The settings for the final tolerance, the truncation threshold, the thresholds for real and
finite points and the name of the path variable have no effect on the results, and neither has the tolerance set on the
tracker: without them a program computes the same. -/
theorem C164_unused (D : Dflt) (N : ℕ) (L : Low d) (ops : List Op) (hd : ∀ o ∈ ops, ¬ IsDefault o) (s : St d)
    (hs : runOps D N L (init D) ops = some s) :
    ∃ r, runOps D N L (init D) (ops.filterMap forget) = some r ∧ s.z = r.z := by
  obtain ⟨r, h1, -, h2⟩ := unused_run D N L ops hd (init D) (init D) s ⟨rfl, rfl, rfl, rfl, rfl, rfl, rfl, rfl⟩ rfl hs
  exact ⟨r, h1, h2⟩

/-- **C164 (defaults).** `DefaultSetup` restores every setting but those of the endgame. `DefaultTrackerSetup` is the one
call that passes the truncation threshold on to the tracker; it restores its other settings. -/
theorem C164_defaults (D : Dflt) (N : ℕ) (L : Low d) (s : St d) :
    (0 < D.tol.before → ∃ s', runOps D N L s [.defaultSettings, .defaultSystem, .defaultTracker, .defaultMidpath] = some s' ∧
      s'.c = { (init (d := d) D).c with eg := s.c.eg }) ∧
    (0 < s.c.tol.before → ∃ s', Op.defaultTracker.run D N L s = some s' ∧ s'.c.tr.trunc = s.c.tol.trunc ∧
      s'.c.tr = { (init (d := d) D).c.tr with trunc := s.c.tol.trunc, tol := s.c.tol.before } ∧ s'.z = s.z ∧
      s'.c = { s.c with tr := s'.c.tr }) := by
  constructor
  · intro h
    refine ⟨⟨{ (init (d := d) D).c with eg := s.c.eg }, { s.z with checker := Checker.fresh }⟩, ?_, rfl⟩
    simp only [runOps, Op.run, Option.bind_some]
    rw [if_neg (not_le.2 h), Option.bind_some]
    rfl
  · intro h
    refine ⟨{ s with c := { s.c with
      tr := ⟨D.predictor, s.c.tol.before, s.c.tol.trunc, D.stepping, D.newton, D.precision⟩ } }, ?_, rfl, rfl, rfl, rfl⟩
    rw [Op.run, if_neg (not_le.2 h)]

/-- **C164 (rejected values).** A program of setters throws exactly when it sets a tracking tolerance or a truncation
threshold of the tracker that is not positive; all other values are taken. -/
theorem C164_rejected (D : Dflt) (N : ℕ) (L : Low d) (ops : List Op) (s : St d)
    (hd : ∀ o ∈ ops, ¬ IsDefault o ∧ o ≠ .solve) :
    runOps D N L s ops = none ↔ ∃ t ≤ 0, Op.trTol t ∈ ops ∨ Op.trTrunc t ∈ ops := by
  induction ops generalizing s with
  | nil => simp [runOps]
  | cons o os ih =>
    have ih' := fun s => ih s fun o h => hd o (List.mem_cons_of_mem _ h)
    obtain ⟨h1, h2⟩ := hd o List.mem_cons_self
    cases o with
    | trTol t =>
      by_cases h : t ≤ 0
      · rw [runOps, Op.run, if_pos h]
        exact ⟨fun _ => ⟨t, h, Or.inl List.mem_cons_self⟩, fun _ => rfl⟩
      · rw [runOps, Op.run, if_neg h, Option.bind_some, ih']
        refine exists_congr fun u => and_congr_right fun hu => ?_
        simp [show u ≠ t from fun e => h (e ▸ hu)]
    | trTrunc t =>
      by_cases h : t ≤ 0
      · rw [runOps, Op.run, if_pos h]
        exact ⟨fun _ => ⟨t, h, Or.inr List.mem_cons_self⟩, fun _ => rfl⟩
      · rw [runOps, Op.run, if_neg h, Option.bind_some, ih']
        refine exists_congr fun u => and_congr_right fun hu => ?_
        simp [show u ≠ t from fun e => h (e ▸ hu)]
    | solve => exact absurd rfl h2
    | defaultSettings => exact absurd trivial h1
    | defaultSystem => exact absurd trivial h1
    | defaultTracker => exact absurd trivial h1
    | defaultMidpath => exact absurd trivial h1
    | _ =>
      rw [runOps, Op.run, Option.bind_some, ih']
      simp

/-- **C164 (name of the path variable).** The name set last is used as soon as the homotopy is made again, by
`DefaultSystemSetup`. -/
theorem C164_path (D : Dflt) (N : ℕ) (L : Low d) (ops : List Op) (s : St d) (hd : ∀ o ∈ ops, ¬ IsDefault o)
    (hs : runOps D N L (init D) (ops ++ [.defaultSystem]) = some s) :
    s.c.path = last (fun | .zd z => some z.name | _ => none) D.zd.name ops := by
  rw [runOps_snoc] at hs
  cases h : runOps D N L (init D) ops with
  | none => rw [h] at hs; simp at hs
  | some r =>
    rw [h, Option.bind_some, Op.run, Option.some.injEq] at hs
    subst hs
    have hk := keeps D N L ops hd r h
    unfold Keeps at hk
    have h1 : r.c.zd = (asked D ops).zd := by rw [hk]
    show r.c.zd.name = _
    rw [h1]
    show (last (fun | .zd z => some z | _ => none) D.zd ops).name = _
    clear hd h h1 hk
    induction ops using List.reverseRecOn with
    | nil => rfl
    | append_singleton ops o ih =>
      rw [last_snoc, last_snoc]
      cases o <;> first | rfl | exact ih

/-! ### Cases -/

/-- A program meeting the hypotheses of `C164_path`. -/
example (D : Dflt) (N : ℕ) (L : Low d) (z : ZD) :
    ∃ s, runOps D N L (init D) ([.mid 3, .zd z, .retrack 2] ++ [.defaultSystem]) = some s ∧ s.c.path = z.name :=
  ⟨_, rfl, rfl⟩

/-- One path that succeeds, without retracking. -/
theorem solve_one (E : ZEnv d) (c : ZCfg) (h0 : c.maxAttempts = 0)
    (ht : (E.track 0 c.newtonBefore (E.start 0)).1 = .success) :
    (solve 1 E c (ZSt.init d)).sols = [(E.endgame 1 (E.track 0 c.newtonBefore (E.start 0)).2).2] := by
  simp [solve, multiplicities, trackDuring, boundary, h0, resolveLoop, recheck, trackBefore, setup, ZSt.init, resize,
    trackSingle, duringSingle, ht]

/-- Defaults, and a tracker and an endgame whose results show their settings. -/
noncomputable def D0 : Dflt := ⟨⟨1, 1, 1, 1⟩, ⟨1, 1, 1⟩, ⟨16, 0, 1, 1 / 10, 0, 0⟩, 1 / 2, 1, 0, 0, 0, 0, ⟨1, 0⟩⟩

noncomputable def L0 : Low 1 where
  start _ _ := fun _ => 0
  track _ _ _ b _ := (.success, fun _ => b)
  endgame _ t e _ _ x := (.success, fun i => x i + e.final + t.tol)

/-- A case: after changes of all kinds the solve uses the boundary, the endgame's tolerance and the tolerance during the
endgame that were set. -/
example : ∃ s s', runOps D0 1 L0 (init D0) [.tol ⟨1, 7, 9, 9⟩, .eg ⟨20, 0⟩, .zd ⟨16, 0, 1, 300, 0, 0⟩, .trTol 5, .mid 3] = some s ∧
    Op.solve.run D0 1 L0 s = some s' ∧ s'.z.sols = [fun _ => 327] := by
  obtain ⟨s, hs⟩ : ∃ s, runOps D0 1 L0 (init D0) [.tol ⟨1, 7, 9, 9⟩, .eg ⟨20, 0⟩, .zd ⟨16, 0, 1, 300, 0, 0⟩, .trTol 5, .mid 3] =
      some s := ⟨_, by
    simp only [runOps, Op.run, Option.bind_some]
    rw [if_neg (by norm_num), Option.bind_some]⟩
  obtain ⟨h1, h2, -⟩ := C164_partial D0 1 L0 _ s (by simp [IsDefault]) hs
  obtain ⟨s', hs'⟩ := h2 (by simp [asked, last]) (by simp [asked, last]) (Or.inl (by norm_num [asked, last, D0]))
  have hz : s.z = ZSt.init 1 := by
    simp only [runOps, Op.run, Option.bind_some] at hs
    rw [if_neg (by norm_num), Option.bind_some, Option.some.injEq] at hs
    rw [← hs]
    rfl
  refine ⟨s, s', hs, hs', ?_⟩
  rw [h1 s' hs', hz, solve_one _ _ rfl rfl]
  congr 1
  funext i
  simp [calls, L0, asked, last]
  norm_num

/-- **C164 fails in general.** The final tolerance set is not that of the endgame. -/
theorem C164_refuted : ¬ C164_full := by
  intro hf
  have hs : runOps D0 1 L0 (init D0) [.tol ⟨1, 1, 5, 1⟩] = some ⟨{ (init (d := 1) D0).c with tol := ⟨1, 1, 5, 1⟩ }, ZSt.init 1⟩ := rfl
  obtain ⟨h1, h2, -⟩ := C164_partial D0 1 L0 _ _ (by simp [IsDefault]) hs
  obtain ⟨s', hs'⟩ := h2 (by simp [asked, last]) (by simp [asked, last]) (Or.inl (by norm_num [asked, last, D0]))
  have e1 := h1 s' hs'
  have e2 := hf 1 1 D0 L0 _ _ s' (by simp [IsDefault]) hs hs'
  rw [e1] at e2
  have e3 := congrArg ZSt.sols e2
  dsimp only at e3
  rw [solve_one _ _ rfl rfl, solve_one _ _ rfl rfl, List.cons.injEq] at e3
  have e4 := congrFun e3.1 0
  simp [calls, L0, asked, wanted, last, D0] at e4

end B2.Alg.Conf
