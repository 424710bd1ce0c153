/-
Invariant of the power-series endgame.
-/
import Verif.Endgame.PS
import Mathlib.Data.List.Chain
import Mathlib.Data.List.Forall2

namespace B2.Endgame
open B2.Track (Code)

variable {X : Type}

/-- `P t x` ("`x` lies on the path at time `t`") is established by a successful track that started on the
path and kept by refinement. -/
structure Sound (E : EgEnv X) (P : ℂ → X → Prop) : Prop where
  track : ∀ k t t' x, P t x → (E.track k t t' x).1 = .success → P t' (E.track k t t' x).2
  refine : ∀ k x t, P t x → P t (E.refine k x t).2

/-- Consecutive approximations are not both beyond the security norm. -/
def NotBothLarge (E : EgEnv X) (cfg : EgCfg) (a b : X) : Prop :=
  ¬ (cfg.maxNorm < E.dehomNorm a ∧ cfg.maxNorm < E.dehomNorm b)

structure PInv (E : EgEnv X) (cfg : EgCfg) (start target : ℂ) (P : ℂ → X → Prop) (s : PSt X) : Prop where
  len : s.times.length = s.samples.length
  lo : cfg.n ≤ s.times.length
  ne : s.times ≠ []
  full : s.times.length = min s.acc.length (cfg.n + 1)
  suf : s.times <:+ s.acc
  al : List.Forall₂ P s.times s.samples
  latestEq : s.latest = s.prev
  prevEq : ∃ h, s.hist = h ++ [s.prev]
  errEq : (s.hist = [s.prev] ∧ s.err = some 1) ∨
    ∃ h a, s.hist = h ++ [a, s.prev] ∧ s.err = E.dist s.prev a
  norm : cfg.level ≤ 0 → s.normPrev = some (E.dehomNorm s.prev)
  sec : cfg.level ≤ 0 → s.hist.IsChain (NotBothLarge E cfg)
  chain : s.acc.IsChain fun t t' => t' = nextTimePS cfg.factor target t
  head : s.acc.head? = some start

theorem refineAll_length (E : EgEnv X) :
    ∀ (ts : List ℂ) (xs : List X) k, (refineAll E k ts xs).2.length = xs.length := by
  intro ts
  induction ts with
  | nil => intro xs k; cases xs <;> simp [refineAll]
  | cons t ts ih =>
    intro xs k
    cases xs with
    | nil => simp [refineAll]
    | cons x xs =>
      rw [refineAll]
      split_ifs <;> simp [ih]

theorem refineAll_sound (E : EgEnv X) (P : ℂ → X → Prop) (hP : Sound E P) :
    ∀ (ts : List ℂ) (xs : List X) k, List.Forall₂ P ts xs → List.Forall₂ P ts (refineAll E k ts xs).2 := by
  intro ts xs k h
  induction h generalizing k with
  | nil => simp [refineAll]
  | cons h1 h2 ih =>
    rw [refineAll]
    split_ifs
    · exact .cons (hP.refine _ _ _ h1) (ih _)
    · exact .cons (hP.refine _ _ _ h1) h2

/-! ### Initial samples -/

theorem initialLoop_spec (E : EgEnv X) (cfg : EgCfg) (start target : ℂ) (P : ℂ → X → Prop) (hP : Sound E P) :
    ∀ rem k ts xs t x ts0 xs0, ts = ts0 ++ [t] → xs = xs0 ++ [x] → List.Forall₂ P ts xs →
      (ts.IsChain fun t t' => t' = nextTimePS cfg.factor target t) → ts.head? = some start →
      ∀ c ts' xs' k', initialLoop E cfg target rem k ts xs t x = (c, ts', xs', k') →
      ts'.length = xs'.length ∧ (ts'.length ≤ ts.length + rem) ∧ ts' ≠ [] ∧
      (ts'.IsChain fun t t' => t' = nextTimePS cfg.factor target t) ∧ ts'.head? = some start ∧
      (c = .success → ts'.length = ts.length + rem ∧ List.Forall₂ P ts' xs') ∧
      (c ≠ .success → ∃ k t t' x, (E.track k t t' x).1 = c) := by
  intro rem
  induction rem with
  | zero =>
    intro k ts xs t x ts0 xs0 h1 h2 h3 h4 h5 c ts' xs' k' h
    simp only [initialLoop, Prod.mk.injEq] at h
    obtain ⟨rfl, rfl, rfl, rfl⟩ := h
    exact ⟨h3.length_eq, by omega, by rw [h1]; simp, h4, h5, fun _ => ⟨by omega, h3⟩,
      fun hc => absurd rfl hc⟩
  | succ rem ih =>
    intro k ts xs t x ts0 xs0 h1 h2 h3 h4 h5 c ts' xs' k' h
    have hch : (ts ++ [nextTimePS cfg.factor target t]).IsChain
        fun t t' => t' = nextTimePS cfg.factor target t := by
      refine h4.append (by simp) ?_
      intro a ha b hb
      rw [h1] at ha
      simp only [List.getLast?_append, List.getLast?_singleton, Option.some_or, Option.mem_some_iff] at ha
      simp only [List.head?_cons, Option.mem_some_iff] at hb
      rw [← ha, ← hb]
    have hh : (ts ++ [nextTimePS cfg.factor target t]).head? = some start := by
      rw [List.head?_append, h5]; rfl
    rw [initialLoop] at h
    by_cases hs : (E.track k t (nextTimePS cfg.factor target t) x).1 = .success
    · rw [if_pos hs] at h
      have hPt : P t x := by
        rw [h1, h2] at h3
        have := List.rel_reverse h3
        simp only [List.reverse_append, List.reverse_cons, List.reverse_nil, List.nil_append,
          List.singleton_append, List.forall₂_cons] at this
        exact this.1
      have h3' := List.rel_append h3 (List.Forall₂.cons (hP.track k t _ x hPt hs) .nil)
      obtain ⟨a1, a2, a3, a4, a5, a6, a7⟩ := ih (k + 1) _ _ _ _ ts xs rfl rfl h3' hch hh c ts' xs' k' h
      refine ⟨a1, ?_, a3, a4, a5, fun hc => ⟨?_, (a6 hc).2⟩, a7⟩
      · rw [List.length_append, List.length_singleton] at a2; omega
      · have := (a6 hc).1
        rw [List.length_append, List.length_singleton] at this; omega
    · rw [if_neg hs] at h
      simp only [Prod.mk.injEq] at h
      obtain ⟨rfl, rfl, rfl, rfl⟩ := h
      exact ⟨by simp [h3.length_eq], by rw [List.length_append, List.length_singleton]; omega, by simp, hch, hh, fun hc => absurd hc hs,
        fun _ => ⟨_, _, _, _, rfl⟩⟩

theorem initPS_spec (E : EgEnv X) (cfg : EgCfg) (start target : ℂ) (P : ℂ → X → Prop) (hP : Sound E P)
    (x0 : X) (h0 : P start x0) (hn : 0 < cfg.n) :
    (∃ s, initPS E cfg start target x0 = .more s ∧ PInv E cfg start target P s ∧ s.err = some 1) ∨
    (∃ c s, initPS E cfg start target x0 = .done c s ∧ c ≠ .success ∧ s.hist = [] ∧
      s.times.length = s.samples.length ∧ s.times.length ≤ cfg.n ∧
      ∃ k t t' x, (E.track k t t' x).1 = c) := by
  obtain ⟨c, ts, xs, k, hr⟩ : ∃ c ts xs k, initialSamples E cfg start target x0 0 = (c, ts, xs, k) :=
    ⟨_, _, _, _, rfl⟩
  obtain ⟨a1, a2, a3, a4, a5, a6, a7⟩ := initialLoop_spec E cfg start target P hP (cfg.n - 1) 0 [start] [x0]
    start x0 [] [] rfl rfl (.cons h0 .nil) (by simp) rfl c ts xs k hr
  rw [List.length_singleton] at a2
  unfold initPS
  simp only [hr]
  by_cases hc : c = .success
  · subst hc
    obtain ⟨b1, b2⟩ := a6 rfl
    rw [List.length_singleton] at b1
    have hlen : ts.length = cfg.n := by omega
    refine .inl ⟨_, if_neg (by simp), ?_, rfl⟩
    have hr := refineAll_sound E P hP ts xs k b2
    exact {
      len := hr.length_eq
      lo := by simp [hlen]
      ne := a3
      full := by simp [hlen]
      suf := List.suffix_rfl
      al := hr
      latestEq := rfl
      prevEq := ⟨[], rfl⟩
      errEq := .inl ⟨rfl, rfl⟩
      norm := fun hl => by simp [hl]
      sec := fun _ => by simp
      chain := a4
      head := a5 }
  · refine .inr ⟨c, _, if_pos hc, hc, rfl, a1, by simpa using (by omega : ts.length ≤ cfg.n), a7 hc⟩

/-! ### One advance -/

theorem advancePS_spec (E : EgEnv X) (cfg : EgCfg) (start target : ℂ) (P : ℂ → X → Prop) (hP : Sound E P)
    (s : PSt X) (h : PInv E cfg start target P s) :
    ∃ t x, s.times.getLast? = some t ∧ s.samples.getLast? = some x ∧ s.acc.getLast? = some t ∧
    ∃ t', t' = nextTimePS cfg.factor target t ∧
    ((‖t' - target‖ < cfg.minTrack ∧ advancePS E cfg target s = some (.minTrackTimeReached, s)) ∨
     (¬ ‖t' - target‖ < cfg.minTrack ∧ (E.track s.k t t' x).1 ≠ .success ∧
        advancePS E cfg target s = some ((E.track s.k t t' x).1, { s with k := s.k + 1 })) ∨
     (¬ ‖t' - target‖ < cfg.minTrack ∧ (E.track s.k t t' x).1 = .success ∧
        (E.refine (s.k + 1) (E.track s.k t t' x).2 t').1 ≠ .success ∧
        advancePS E cfg target s = some ((E.refine (s.k + 1) (E.track s.k t t' x).2 t').1,
          { s with times := s.times ++ [t'],
                   samples := s.samples ++ [(E.refine (s.k + 1) (E.track s.k t t' x).2 t').2],
                   k := s.k + 2 })) ∨
     (¬ ‖t' - target‖ < cfg.minTrack ∧ ∃ ts xs, List.Forall₂ P ts xs ∧ ts <:+ s.acc ++ [t'] ∧ ts ≠ [] ∧
        cfg.n ≤ ts.length ∧ ts.length = min (s.acc.length + 1) (cfg.n + 1) ∧
        advancePS E cfg target s = some (.success, { s with times := ts, samples := xs, k := s.k + 2,
                                                             acc := s.acc ++ [t'] }))) := by
  obtain ⟨t, ht⟩ : ∃ t, s.times.getLast? = some t := by
    exact ⟨_, List.getLast?_eq_some_getLast h.ne⟩
  have hxne : s.samples ≠ [] := by
    intro h0; have := h.len; rw [h0] at this; exact h.ne (List.length_eq_zero_iff.1 (by simpa using this))
  obtain ⟨x, hx⟩ : ∃ x, s.samples.getLast? = some x := by
    exact ⟨_, List.getLast?_eq_some_getLast hxne⟩
  have hacc : s.acc.getLast? = some t := by
    obtain ⟨l, hl⟩ := h.suf
    rw [← hl, List.getLast?_append, ht]; rfl
  have hPt : P t x := by
    have h1 := List.dropLast_append_getLast? t ht
    have h2 := List.dropLast_append_getLast? x hx
    have := List.rel_reverse h.al
    rw [← h1, ← h2] at this
    simp only [List.reverse_append, List.reverse_cons, List.reverse_nil, List.nil_append,
      List.singleton_append, List.forall₂_cons] at this
    exact this.1
  refine ⟨t, x, ht, hx, hacc, _, rfl, ?_⟩
  obtain ⟨t', ht'⟩ : ∃ t', t' = nextTimePS cfg.factor target t := ⟨_, rfl⟩
  rw [← ht']
  unfold advancePS
  rw [ht, hx]
  dsimp only
  rw [← ht']
  by_cases h1 : ‖t' - target‖ < cfg.minTrack
  · exact .inl ⟨h1, if_pos h1⟩
  rw [if_neg h1]
  by_cases h2 : (E.track s.k t t' x).1 = .success
  swap
  · exact .inr (.inl ⟨h1, h2, if_pos h2⟩)
  rw [if_neg (by simpa using h2)]
  by_cases h3 : (E.refine (s.k + 1) (E.track s.k t t' x).2 t').1 = .success
  swap
  · exact .inr (.inr (.inl ⟨h1, h2, h3, if_pos h3⟩))
  rw [if_neg (by simpa using h3)]
  refine .inr (.inr (.inr ⟨h1, ?_⟩))
  have hPn : P t' (E.refine (s.k + 1) (E.track s.k t t' x).2 t').2 :=
    hP.refine _ _ _ (hP.track _ _ _ _ hPt h2)
  have hal := List.rel_append h.al (List.Forall₂.cons hPn .nil)
  have hfull := h.full
  have hlo := h.lo
  have hsuf : s.times ++ [t'] <:+ s.acc ++ [t'] := by
    obtain ⟨l, hl⟩ := h.suf
    exact ⟨l, by rw [← hl, List.append_assoc]⟩
  have haccl : s.times.length ≤ s.acc.length := h.suf.length_le
  by_cases h4 : cfg.n + 1 < (s.times ++ [t']).length
  · rw [if_pos h4]
    rw [List.length_append, List.length_singleton] at h4
    refine ⟨_, _, ?_, (List.tail_suffix _).trans hsuf, ?_, ?_, ?_, rfl⟩
    · cases hts : s.times with
      | nil => exact absurd hts h.ne
      | cons a as =>
        cases hxs : s.samples with
        | nil => exact absurd hxs hxne
        | cons b bs =>
          rw [hts, hxs] at hal
          simp only [List.cons_append, List.tail_cons, List.forall₂_cons] at hal ⊢
          exact hal.2
    · intro h0
      have := congrArg List.length h0
      rw [List.length_tail, List.length_append, List.length_singleton, List.length_nil] at this
      omega
    · rw [List.length_tail, List.length_append, List.length_singleton]; omega
    · rw [List.length_tail, List.length_append, List.length_singleton]; omega
  · rw [if_neg h4]
    rw [List.length_append, List.length_singleton] at h4
    refine ⟨_, _, hal, hsuf, by simp, ?_, ?_, rfl⟩
    · rw [List.length_append, List.length_singleton]; omega
    · rw [List.length_append, List.length_singleton]; omega

/-! ### One turn of the loop -/

theorem stepPS_spec (E : EgEnv X) (cfg : EgCfg) (start target : ℂ) (P : ℂ → X → Prop) (hP : Sound E P)
    (s : PSt X) (h : PInv E cfg start target P s) :
    (∃ s', stepPS E cfg target s = .more s' ∧ PInv E cfg start target P s' ∧
      ∃ t, s.acc.getLast? = some t ∧ s'.acc = s.acc ++ [nextTimePS cfg.factor target t] ∧
        ¬ ‖nextTimePS cfg.factor target t - target‖ < cfg.minTrack ∧ above cfg.finalTol s.err) ∨
    (stepPS E cfg target s = .done .success s ∧ ¬ above cfg.finalTol s.err) ∨
    (∃ s', stepPS E cfg target s = .done .minTrackTimeReached s' ∧ s' = s) ∨
    (∃ c s', stepPS E cfg target s = .done c s' ∧ c ≠ .success ∧
      (∃ k t t' x, (E.track k t t' x).1 = c) ∧ s'.times = s.times ∧ s'.samples = s.samples) ∨
    (∃ c s', stepPS E cfg target s = .done c s' ∧ c ≠ .success ∧
      (∃ k x t, (E.refine k x t).1 = c) ∧ s'.times.length = s.times.length + 1 ∧
        s'.times.length = s'.samples.length) ∨
    (∃ s' h a b, stepPS E cfg target s = .done .securityMaxNormReached s' ∧ cfg.level ≤ 0 ∧
      s'.hist = h ++ [a, b] ∧ cfg.maxNorm < E.dehomNorm a ∧ cfg.maxNorm < E.dehomNorm b ∧
      (h ++ [a]).IsChain (NotBothLarge E cfg) ∧
      s'.times.length = s'.samples.length ∧ s'.times.length ≤ cfg.n + 1 ∧ s'.latest = b) := by
  by_cases hab : above cfg.finalTol s.err
  swap
  · exact .inr (.inl ⟨by unfold stepPS; rw [if_neg hab], hab⟩)
  obtain ⟨t, x, ht, hx, hacc, t', ht', hcase⟩ := advancePS_spec E cfg start target P hP s h
  rcases hcase with ⟨-, e⟩ | ⟨-, h2, e⟩ | ⟨-, -, h3, e⟩ | ⟨h1, ts, xs, hal, hsuf, hne, hlo, hfull, e⟩
  · exact .inr (.inr (.inl ⟨s, by unfold stepPS; rw [if_pos hab, e]; simp, rfl⟩))
  · exact .inr (.inr (.inr (.inl ⟨_, { s with k := s.k + 1 }, by
      unfold stepPS; rw [if_pos hab, e]; dsimp only; rw [if_pos h2], h2, ⟨_, _, _, _, rfl⟩, rfl, rfl⟩)))
  · exact .inr (.inr (.inr (.inr (.inl ⟨_, _, by
      unfold stepPS; rw [if_pos hab, e]; dsimp only; rw [if_pos h3], h3, ⟨_, _, _, rfl⟩, by simp,
        by simp [h.len]⟩))))
  · obtain ⟨s1, hs1⟩ : ∃ s1 : PSt X, s1 = { s with times := ts, samples := xs, k := s.k + 2, acc := s.acc ++ [t'] } :=
      ⟨_, rfl⟩
    rw [← hs1] at e
    obtain ⟨s2, hs2⟩ : ∃ s2, s2 = extrapolatePS E s1 := ⟨_, rfl⟩
    have e2 : stepPS E cfg target s =
        if cfg.level ≤ 0 then
          if cfg.maxNorm < E.dehomNorm s2.latest then
            match s2.normPrev with
            | none => .bad
            | some np =>
              if cfg.maxNorm < np then .done .securityMaxNormReached s2
              else .more { s2 with normPrev := some (E.dehomNorm s2.latest), prev := s2.latest }
          else .more { s2 with normPrev := some (E.dehomNorm s2.latest), prev := s2.latest }
        else .more { s2 with prev := s2.latest } := by
      unfold stepPS; rw [if_pos hab, e]; dsimp only; rw [if_neg (by simp), hs2]; rfl
    have f1 : s2.times = ts := by rw [hs2, hs1]; rfl
    have f2 : List.Forall₂ P ts s2.samples := by
      rw [hs2, hs1]; exact refineAll_sound E P hP _ _ _ hal
    have f3 : s2.hist = s.hist ++ [s2.latest] := by rw [hs2, hs1]; rfl
    have f4 : s2.err = E.dist s2.latest s.prev := by rw [hs2, hs1]; rfl
    have f5 : s2.normPrev = s.normPrev := by rw [hs2, hs1]; rfl
    have f6 : s2.acc = s.acc ++ [t'] := by rw [hs2, hs1]; rfl
    obtain ⟨hh, hhist⟩ := h.prevEq
    have hnew : ∀ np, (cfg.level ≤ 0 → np = some (E.dehomNorm s2.latest)) →
        (cfg.level ≤ 0 → NotBothLarge E cfg s.prev s2.latest) →
        PInv E cfg start target P { s2 with normPrev := np, prev := s2.latest } := by
      intro np hnp hnb
      exact {
        len := by rw [f1]; exact f2.length_eq
        lo := by rw [f1]; exact hlo
        ne := by rw [f1]; exact hne
        full := by rw [f1, f6, hfull]; simp
        suf := by rw [f1, f6]; exact hsuf
        al := by rw [f1]; exact f2
        latestEq := rfl
        prevEq := ⟨s.hist, f3⟩
        errEq := .inr ⟨hh, s.prev, by rw [f3, hhist]; simp, f4⟩
        norm := hnp
        sec := fun hl => by
          rw [f3]
          refine (h.sec hl).append (by simp) ?_
          intro a ha b hb
          rw [hhist] at ha
          simp only [List.getLast?_append, List.getLast?_singleton, Option.some_or,
            Option.mem_some_iff] at ha
          simp only [List.head?_cons, Option.mem_some_iff] at hb
          rw [← ha, ← hb]
          exact hnb hl
        chain := by
          rw [f6]
          refine h.chain.append (by simp) ?_
          intro a ha b hb
          rw [hacc] at ha
          simp only [Option.mem_some_iff] at ha
          simp only [List.head?_cons, Option.mem_some_iff] at hb
          rw [← ha, ← hb, ht']
        head := by rw [f6, List.head?_append, h.head]; rfl }
    have hmore : ∀ s', stepPS E cfg target s = .more s' → s'.acc = s2.acc → PInv E cfg start target P s' →
        (∃ s', stepPS E cfg target s = .more s' ∧ PInv E cfg start target P s' ∧
          ∃ t, s.acc.getLast? = some t ∧ s'.acc = s.acc ++ [nextTimePS cfg.factor target t] ∧
            ¬ ‖nextTimePS cfg.factor target t - target‖ < cfg.minTrack ∧ above cfg.finalTol s.err) := by
      intro s' h5 h6 h7
      exact ⟨s', h5, h7, t, hacc, by rw [h6, f6, ht'], by rw [← ht']; exact h1, hab⟩
    by_cases hl : cfg.level ≤ 0
    · rw [if_pos hl] at e2
      by_cases hb : cfg.maxNorm < E.dehomNorm s2.latest
      · rw [if_pos hb, f5, h.norm hl] at e2
        dsimp only at e2
        by_cases hp : cfg.maxNorm < E.dehomNorm s.prev
        · rw [if_pos hp] at e2
          refine .inr (.inr (.inr (.inr (.inr ⟨s2, hh, s.prev, s2.latest, e2, hl, by rw [f3, hhist]; simp, hp,
            hb, ?_, by rw [f1]; exact f2.length_eq, by rw [f1]; omega, rfl⟩))))
          have := h.sec hl
          rwa [hhist] at this
        · rw [if_neg hp] at e2
          exact .inl (hmore _ e2 rfl (hnew _ (fun _ => rfl) fun _ hx => hp hx.1))
      · rw [if_neg hb] at e2
        exact .inl (hmore _ e2 rfl (hnew _ (fun _ => rfl) fun _ hx => hb hx.2))
    · rw [if_neg hl] at e2
      exact .inl (hmore _ e2 rfl (hnew s2.normPrev (fun h0 => absurd h0 hl) fun h0 => absurd h0 hl))

end B2.Endgame
