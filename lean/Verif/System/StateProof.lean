import Verif.System.State
import Verif.System.VarsProof
import Verif.Tree.DegreeProof
import Verif.Tree.DiffProof
import Verif.Patch.PropsPatch

/-! Lemmas for `State`: the invariant relating derivatives, compiled program and functions. -/

set_option linter.unusedSimpArgs false
set_option linter.unusedSectionVars false

namespace B2

theorem Ops.vars_append (a b : Ops) : (a.append b).vars = a.vars ++ b.vars := by
  induction a using Ops.rec (motive_1 := fun _ => True) <;> simp_all [Ops.append, Ops.vars]

/-- Differentiating introduces no new variables. -/
theorem vars_diff (v : Var) (n : Node) : ∀ w ∈ (diff v n).vars, w ∈ n.vars := by
  induction n using Node.rec (motive_2 := fun ops =>
      (∀ w ∈ (diffSum v ops).vars, w ∈ ops.vars) ∧
      ∀ pre : Ops, ∀ w ∈ (diffMult v pre ops).vars, w ∈ pre.vars ∨ w ∈ ops.vars) with
  | nil => simp [diffSum, diffMult, Ops.vars]
  | cons f n r ih1 ih2 =>
    constructor
    · intro w hw
      rw [diffSum] at hw
      simp only [Ops.vars, List.mem_append]
      split_ifs at hw
      · exact Or.inr (ih2.1 w hw)
      · exact Or.inr (ih2.1 w hw)
      · simp only [Ops.vars, List.mem_append] at hw
        rcases hw with h | h
        · exact Or.inl (ih1 w h)
        · exact Or.inr (ih2.1 w h)
    · intro pre w hw
      rw [diffMult] at hw
      have hrest : ∀ u ∈ (diffMult v (pre.append (.cons f n .nil)) r).vars,
          u ∈ pre.vars ∨ u ∈ (Ops.cons f n r).vars := by
        intro u hu
        have := ih2.2 _ u hu
        simp only [Ops.vars_append, Ops.vars, List.mem_append, List.append_nil] at this ⊢
        tauto
      split_ifs at hw
      · exact hrest w hw
      · exact hrest w hw
      · simp only [Ops.vars, Node.vars, List.mem_append, Ops.vars_append] at hw
        rcases hw with (h | h) | h
        · have := ih1 w h
          simp [Ops.vars, this]
        · rcases h with (h | h) | h
          · exact Or.inl h
          · simp [Ops.vars, h]
          · cases f <;> simp [quotientTail, Ops.vars, Node.vars] at h ⊢
            simp [h]
        · exact hrest w h
  | int => simp [diff, Node.vars]
  | float => simp [diff, Node.vars]
  | rat => simp [diff, Node.vars]
  | special => simp [diff, Node.vars]
  | var w => intro u hu; simp only [diff] at hu; split_ifs at hu <;> simp [Node.vars] at hu
  | sum ops ih =>
    intro w hw
    simp only [diff] at hw
    have : w ∈ (diffSum v ops).vars := by
      cases h : diffSum v ops <;> simp [h, sumOrZero, Node.vars, Ops.vars] at hw ⊢
      exact hw
    exact ih.1 w this
  | mult ops ih =>
    intro w hw
    simp only [diff] at hw
    have : w ∈ (diffMult v .nil ops).vars := by
      cases h : diffMult v .nil ops <;> simp [h, sumOrZero, Node.vars, Ops.vars] at hw ⊢
      exact hw
    simpa [Ops.vars, Node.vars] using ih.2 .nil w this
  | ipow n k ih =>
    intro w hw
    simp only [diff] at hw
    simp only [Node.vars]
    split_ifs at hw
    · simp [Node.vars] at hw
    · exact ih w hw
    · simp only [Node.vars, Ops.vars, List.mem_append, List.nil_append, List.append_nil] at hw
      rcases hw with h | h
      · exact h
      · exact ih w h
    · simp only [Node.vars, Ops.vars, List.mem_append, List.nil_append, List.append_nil] at hw
      rcases hw with h | h
      · exact h
      · exact ih w h
  | pow b e ih1 ih2 =>
    intro w hw
    simp only [diff, Node.vars, Ops.vars, List.mem_append, List.append_nil] at hw ⊢
    rcases hw with h | h | h | h
    · exact Or.inl (ih1 w h)
    · exact Or.inr h
    · exact Or.inl h
    · exact Or.inr h
  | _ n ih =>
    intro w hw
    simp only [diff, Node.vars, Ops.vars, List.mem_append, List.append_nil, List.nil_append] at hw ⊢
    first
      | exact ih w hw
      | (rcases hw with h | h
         · first | exact ih w h | exact h
         · first | exact ih w h | exact h)

end B2

namespace B2.Sys

open Classical

/-- `env` gives the variables `vars` the coordinates `x`, in order. -/
def Binds (vars : List Var) (x : List ℂ) (env : Env) : Prop := vars.map env = x

theorem bind_notMem {vars : List Var} : ∀ {x : List ℂ} {env : Env} {v : Var}, v ∉ vars →
    bind vars x env v = env v := by
  induction vars with
  | nil => intro x env v _; simp [bind]
  | cons u vars ih =>
    intro x env v hv
    cases x with
    | nil => simp [bind]
    | cons a x =>
      simp only [List.mem_cons, not_or] at hv
      have := ih (x := x) (env := Function.update env u a) hv.2
      simp only [bind, List.zip_cons_cons, List.foldl_cons] at this ⊢
      rw [this, Function.update_of_ne hv.1]

theorem bind_mem {vars : List Var} : ∀ {x : List ℂ} {env e : Env} {v : Var}, Binds vars x env →
    (v ∈ vars ∨ e v = env v) → bind vars x e v = env v := by
  induction vars with
  | nil => intro x env e v hb hv; simpa [bind] using hv
  | cons u vars ih =>
    intro x env e v hb hv
    cases x with
    | nil => simp [Binds] at hb
    | cons a x =>
      simp only [Binds, List.map_cons, List.cons.injEq] at hb
      have := ih (x := x) (env := env) (e := Function.update e u a) (v := v) hb.2 (by
        by_cases h : v = u
        · subst h; right; simp [hb.1]
        · rw [Function.update_of_ne h]
          simp only [List.mem_cons, h, false_or] at hv
          exact hv)
      simpa only [bind, List.zip_cons_cons, List.foldl_cons] using this

/-- With distinct variables, a binding environment exists. -/
theorem binds_bind {vars : List Var} (hnd : vars.Nodup) : ∀ {x : List ℂ} {e : Env},
    x.length = vars.length → Binds vars x (bind vars x e) := by
  induction vars with
  | nil => intro x e h; cases x <;> simp_all [Binds]
  | cons u vars ih =>
    intro x e h
    cases x with
    | nil => simp at h
    | cons a x =>
      have hn := List.nodup_cons.1 hnd
      have := ih hn.2 (x := x) (e := Function.update e u a) (by simpa using h)
      simp only [Binds, bind, List.zip_cons_cons, List.foldl_cons, List.map_cons,
        List.cons.injEq] at this ⊢
      refine ⟨?_, this⟩
      have h2 := bind_notMem (x := x) (env := Function.update e u a) hn.1
      simpa [bind] using h2

theorem eval_bind {vars : List Var} {path : Option Var} {x : List ℂ} {env e : Env} {n : Node}
    (hb : Binds vars x env) (hp : ∀ t, path = some t → e t = env t) (hc : Closed vars path n) :
    eval (bind vars x e) n = eval env n :=
  eval_congr n fun w hw => bind_mem hb (by
    rcases hc w hw with h | h
    · exact Or.inl h
    · exact Or.inr (hp w h))

theorem closed_diff {vars : List Var} {path : Option Var} {n : Node} (v : Var)
    (hc : Closed vars path n) : Closed vars path (diff v n) :=
  fun w hw => hc w (vars_diff v n w hw)

/-- Bookkeeping of one object is in step with the functions it lists. -/
structure Sync (simp : Node → Node) (w : World) (o : Obj) : Prop where
  derivs : o.diffed = true → ∃ vars, o.vars = some vars ∧
    o.dx = spaceDerivs simp vars (w.roots o) ∧
    (∀ t, o.path = some t → o.dt = (w.roots o).map fun f => simp (diff t f)) ∧
    (o.method = .slp → o.prog.vars = vars ∧ o.prog.path = o.path ∧ o.prog.fns = w.roots o ∧
      o.prog.dx = o.dx ∧ (∀ t, o.path = some t → o.prog.dt = o.dt) ∧
      o.fns.Nodup ∧ ∀ f ∈ w.roots o, Closed vars o.path f)
  noProg : o.method = .functionTree → o.prog.fns = []

/-- Every object is in step, and refers to existing functions. -/
structure Good (simp : Node → Node) (w : World) : Prop where
  sync : ∀ i, Sync simp w (w.objs i)
  bound : ∀ i, ∀ f ∈ (w.objs i).fns, f < w.next

theorem Sync.congr {simp : Node → Node} {w w' : World} {o : Obj} (h : Sync simp w o)
    (hr : o.diffed = true → w'.roots o = w.roots o) : Sync simp w' o :=
  ⟨by intro hd; rw [hr hd]; exact h.derivs hd, h.noProg⟩

theorem Sync.undiffed {simp : Node → Node} {w : World} {o : Obj} (hd : o.diffed = false)
    (hp : o.method = .functionTree → o.prog.fns = []) : Sync simp w o :=
  ⟨by simp [hd], hp⟩

theorem differentiate_sync {simp : Node → Node} {w : World} {o o' : Obj}
    (hs : o.method = .functionTree → o.prog.fns = [])
    (h : differentiate simp w o = some o') :
    Sync simp w o' ∧ o'.diffed = true ∧ o'.vs = o.vs ∧ o'.path = o.path ∧ o'.fns = o.fns ∧
      o'.method = o.method ∧ o'.patch = o.patch ∧ o'.patched = o.patched ∧ o'.cur = o.cur := by
  unfold differentiate at h
  simp only [Option.bind_eq_bind, Option.bind_eq_some_iff] at h
  obtain ⟨vars, hv, h⟩ := h
  cases hm : o.method with
  | functionTree =>
    simp only [hm, Option.some.injEq] at h
    subst h
    refine ⟨⟨fun _ => ⟨vars, hv, rfl, ?_, ?_⟩, fun _ => hs hm⟩, rfl, rfl, rfl, rfl, rfl, rfl, rfl, rfl⟩
    · intro t ht
      dsimp only at ht ⊢
      rw [ht]; rfl
    · intro h2
      exact absurd h2 (by simp)
  | slp =>
    simp only [hm] at h
    split_ifs at h with hc
    · simp only [Option.some.injEq] at h
      subst h
      refine ⟨⟨fun _ => ⟨vars, hv, rfl, ?_, ?_⟩, ?_⟩, rfl, rfl, rfl, rfl, rfl, rfl, rfl, rfl⟩
      · intro t ht
        dsimp only at ht ⊢
        rw [ht]; rfl
      · intro _
        refine ⟨rfl, rfl, rfl, rfl, ?_, hc.1, hc.2⟩
        intro t ht
        dsimp only at ht ⊢
        rw [ht]
      · intro h2
        exact absurd h2 (by simp)

theorem ensureDiff_sync {simp : Node → Node} {w : World} {o o' : Obj} (hs : Sync simp w o)
    (h : ensureDiff simp w o = some o') :
    Sync simp w o' ∧ o'.diffed = true ∧ o'.vs = o.vs ∧ o'.path = o.path ∧ o'.fns = o.fns ∧
      o'.method = o.method ∧ o'.patch = o.patch ∧ o'.patched = o.patched ∧ o'.cur = o.cur := by
  unfold ensureDiff at h
  split_ifs at h with hd
  · simp only [Option.some.injEq] at h
    subst h
    exact ⟨hs, hd, rfl, rfl, rfl, rfl, rfl, rfl, rfl⟩
  · exact differentiate_sync hs.noProg h

/-- When differentiating succeeds. -/
theorem ensureDiff_some {simp : Node → Node} {w : World} {o : Obj} {vars : List Var}
    (hv : o.vars = some vars)
    (hok : o.method = .slp → o.fns.Nodup ∧ ∀ f ∈ w.roots o, Closed vars o.path f) :
    ∃ o', ensureDiff simp w o = some o' := by
  unfold ensureDiff
  split_ifs with hd
  · exact ⟨o, rfl⟩
  · unfold differentiate
    simp only [hv, Option.bind_eq_bind, Option.bind_some]
    cases hm : o.method with
    | functionTree => exact ⟨_, rfl⟩
    | slp =>
      simp only
      rw [if_pos (hok hm)]
      exact ⟨_, rfl⟩

theorem Sync.ext {simp : Node → Node} {w w' : World} {o o' : Obj} (h : Sync simp w o)
    (e0 : w'.heap = w.heap) (e1 : o'.vs = o.vs) (e2 : o'.path = o.path) (e3 : o'.fns = o.fns)
    (e4 : o'.diffed = o.diffed) (e5 : o'.dx = o.dx) (e6 : o'.dt = o.dt) (e7 : o'.method = o.method)
    (e8 : o'.prog.vars = o.prog.vars) (e9 : o'.prog.path = o.prog.path)
    (e10 : o'.prog.fns = o.prog.fns) (e11 : o'.prog.dx = o.prog.dx)
    (e12 : o'.prog.dt = o.prog.dt) : Sync simp w' o' := by
  have hr : w'.roots o' = w.roots o := by simp [World.roots, e0, e3]
  have hv : o'.vars = o.vars := by simp [Obj.vars, e1]
  refine ⟨?_, ?_⟩
  · rw [e4, e2, e5, e6, e7, e8, e9, e10, e11, e12, hr, hv, e3]
    exact h.derivs
  · rw [e7, e10]; exact h.noProg

/-- Object `i` of `w'` is object `i` of `w` with derivatives and inputs updated; nothing else
changed. -/
structure Touched (simp : Node → Node) (w w' : World) (i : ℕ) : Prop where
  heap : w'.heap = w.heap
  next : w'.next = w.next
  others : ∀ k, k ≠ i → w'.objs k = w.objs k
  vs : (w'.objs i).vs = (w.objs i).vs
  path : (w'.objs i).path = (w.objs i).path
  fns : (w'.objs i).fns = (w.objs i).fns
  method : (w'.objs i).method = (w.objs i).method
  patch : (w'.objs i).patch = (w.objs i).patch
  patched : (w'.objs i).patched = (w.objs i).patched
  diffed : (w'.objs i).diffed = true
  sync : Sync simp w' (w'.objs i)

theorem roots_of_heap {w w' : World} (h : w'.heap = w.heap) (o : Obj) : w'.roots o = w.roots o := by
  simp [World.roots, h]

theorem Touched.trans {simp : Node → Node} {w w' w'' : World} {i : ℕ} (a : Touched simp w w' i)
    (b : Touched simp w' w'' i) : Touched simp w w'' i where
  heap := b.heap.trans a.heap
  next := b.next.trans a.next
  others := fun k hk => (b.others k hk).trans (a.others k hk)
  vs := b.vs.trans a.vs
  path := b.path.trans a.path
  fns := b.fns.trans a.fns
  method := b.method.trans a.method
  patch := b.patch.trans a.patch
  patched := b.patched.trans a.patched
  diffed := b.diffed
  sync := b.sync

theorem Touched.roots {simp : Node → Node} {w w' : World} {i : ℕ} (a : Touched simp w w' i) :
    w'.roots (w'.objs i) = w.roots (w.objs i) := by
  simp [World.roots, a.heap, a.fns]

theorem Touched.vars {simp : Node → Node} {w w' : World} {i : ℕ} (a : Touched simp w w' i) :
    (w'.objs i).vars = (w.objs i).vars := by
  simp [Obj.vars, a.vs]

theorem Touched.good {simp : Node → Node} {w w' : World} {i : ℕ} (a : Touched simp w w' i)
    (hg : Good simp w) : Good simp w' where
  sync := fun k => by
    by_cases hk : k = i
    · subst hk; exact a.sync
    · rw [a.others k hk]
      exact (hg.sync k).congr fun _ => roots_of_heap a.heap _
  bound := fun k => by
    by_cases hk : k = i
    · subst hk; rw [a.fns, a.next]; exact hg.bound k
    · rw [a.others k hk, a.next]; exact hg.bound k

theorem setVariables_some {simp : Node → Node} {w w' : World} {i : ℕ} {x : List ℂ}
    (hs : Sync simp w (w.objs i)) (h : setVariables simp w i x = some w') :
    ∃ vars, (w.objs i).vars = some vars ∧ x.length = vars.length ∧ Touched simp w w' i ∧
      (w'.objs i).cur = x ∧
      ((w.objs i).method = .functionTree → w'.vals = bind vars x w.vals) ∧
      ((w.objs i).method = .slp → ∃ m, (w'.objs i).prog.mem = bind vars x m) := by
  unfold setVariables at h
  simp only [Option.bind_eq_bind, Option.bind_eq_some_iff] at h
  obtain ⟨vars, hv, h⟩ := h
  split_ifs at h with hl
  simp only [Option.bind_eq_some_iff] at h
  obtain ⟨o, ho, h⟩ := h
  obtain ⟨h1, h2, h3, h4, h5, h6, h7, h8, h9⟩ := ensureDiff_sync hs ho
  push Not at hl
  refine ⟨vars, hv, hl, ?_⟩
  cases hm : o.method with
  | functionTree =>
    simp only [hm, Option.some.injEq] at h
    subst h
    simp only [World.set, Function.update_self]
    refine ⟨⟨rfl, rfl, ?_, ?_, ?_, ?_, ?_, ?_, ?_, ?_, ?_⟩, trivial, ?_, ?_⟩
    · intro k hk; simp [Function.update_of_ne hk]
    all_goals try simp only [Function.update_self]
    · exact h3
    · exact h4
    · exact h5
    · rw [← h6, hm]
    · exact h7
    · exact h8
    · exact h2
    · exact h1.ext rfl rfl rfl rfl rfl rfl rfl hm.symm rfl rfl rfl rfl rfl
    · intro _; trivial
    · intro hh; rw [← h6, hm] at hh; simp at hh
  | slp =>
    simp only [hm] at h
    split_ifs at h with hp
    simp only [Option.some.injEq] at h
    subst h
    have hpv : o.prog.vars = vars := by
      obtain ⟨vars', hv', _, _, hx⟩ := h1.derivs h2
      rw [(hx hm).1]
      have : o.vars = (w.objs i).vars := by simp [Obj.vars, h3]
      rw [this, hv] at hv'
      exact (Option.some.inj hv').symm
    simp only [World.set, Function.update_self]
    refine ⟨⟨rfl, rfl, ?_, ?_, ?_, ?_, ?_, ?_, ?_, ?_, ?_⟩, trivial, ?_, ?_⟩
    · intro k hk; simp [Function.update_of_ne hk]
    all_goals try simp only [Function.update_self]
    · exact h3
    · exact h4
    · exact h5
    · rw [← h6, hm]
    · exact h7
    · exact h8
    · exact h2
    · exact h1.ext rfl rfl rfl rfl rfl rfl rfl hm.symm rfl rfl rfl rfl rfl
    · intro hh; rw [← h6, hm] at hh; simp at hh
    · intro _; rw [hpv]; exact ⟨_, rfl⟩

theorem setVariables_ok {simp : Node → Node} {w : World} {i : ℕ} {x : List ℂ} {vars : List Var}
    (hs : Sync simp w (w.objs i)) (hv : (w.objs i).vars = some vars) (hl : x.length = vars.length)
    (hok : (w.objs i).method = .slp →
      (w.objs i).fns.Nodup ∧ ∀ f ∈ w.roots (w.objs i), Closed vars (w.objs i).path f) :
    ∃ w', setVariables simp w i x = some w' := by
  obtain ⟨o, ho⟩ := ensureDiff_some (simp := simp) hv hok
  obtain ⟨h1, h2, h3, h4, h5, h6, h7, h8, h9⟩ := ensureDiff_sync hs ho
  unfold setVariables
  simp only [hv, Option.bind_eq_bind, Option.bind_some, ho]
  rw [if_neg (by simp [hl])]
  cases hm : o.method with
  | functionTree => exact ⟨_, rfl⟩
  | slp =>
    have hpv : o.prog.vars = vars := by
      obtain ⟨vars', hv', _, _, hx⟩ := h1.derivs h2
      rw [(hx hm).1]
      have : o.vars = (w.objs i).vars := by simp [Obj.vars, h3]
      rw [this, hv] at hv'
      exact (Option.some.inj hv').symm
    simp only
    rw [if_neg (by rw [hpv]; omega)]
    exact ⟨_, rfl⟩

theorem setPath_some {simp : Node → Node} {w w' : World} {i : ℕ} {t : ℂ}
    (hs : Sync simp w (w.objs i)) (hd : (w.objs i).diffed = true)
    (h : setPath simp w i t = some w') :
    ∃ p, (w.objs i).path = some p ∧ Touched simp w w' i ∧
      (w'.objs i).cur = (w.objs i).cur ∧
      w'.vals = Function.update w.vals p t ∧
      ((w.objs i).method = .slp →
        (w'.objs i).prog.mem = Function.update (w.objs i).prog.mem p t) := by
  unfold setPath at h
  simp only [Option.bind_eq_bind, Option.bind_eq_some_iff, ensureDiff, hd, if_true,
    Option.some.injEq, exists_eq_left'] at h
  obtain ⟨p, hp, h⟩ := h
  refine ⟨p, hp, ?_⟩
  cases hm : (w.objs i).method with
  | functionTree =>
    simp only [hm, Option.some.injEq] at h
    subst h
    simp only [World.set, Function.update_self]
    refine ⟨⟨rfl, rfl, ?_, ?_, ?_, ?_, ?_, ?_, ?_, ?_, ?_⟩, trivial, trivial, ?_⟩
    · intro k hk; simp [Function.update_of_ne hk]
    all_goals try simp only [Function.update_self]
    · exact hd
    · exact hs.ext rfl rfl rfl rfl rfl rfl rfl (by simp [hm]) rfl rfl rfl rfl rfl
    · intro hh; simp at hh
  | slp =>
    simp only [hm, Option.bind_eq_some_iff, Option.some.injEq] at h
    obtain ⟨q, hq, h⟩ := h
    subst h
    have hpq : q = p := by
      obtain ⟨vars', hv', _, _, hx⟩ := hs.derivs hd
      rw [(hx hm).2.1, hp] at hq
      exact (Option.some.inj hq).symm
    simp only [World.set, Function.update_self]
    refine ⟨⟨rfl, rfl, ?_, ?_, ?_, ?_, ?_, ?_, ?_, ?_, ?_⟩, trivial, trivial, ?_⟩
    · intro k hk; simp [Function.update_of_ne hk]
    all_goals try simp only [Function.update_self]
    · exact hm.symm
    · exact hs.ext rfl rfl rfl rfl hd.symm rfl rfl (by simp [hm]) rfl rfl rfl rfl rfl
    · intro _; rw [hpq]

theorem setPath_ok {simp : Node → Node} {w : World} {i : ℕ} {t : ℂ} {p : Var}
    (hs : Sync simp w (w.objs i)) (hd : (w.objs i).diffed = true) (hp : (w.objs i).path = some p) :
    ∃ w', setPath simp w i t = some w' := by
  unfold setPath
  simp only [Option.bind_eq_bind, hp, Option.bind_some, ensureDiff, hd, if_true]
  cases hm : (w.objs i).method with
  | functionTree => exact ⟨_, rfl⟩
  | slp =>
    obtain ⟨vars', hv', _, _, hx⟩ := hs.derivs hd
    have : (w.objs i).prog.path = some p := by rw [(hx hm).2.1, hp]
    simp only [this, Option.bind_some]
    exact ⟨_, rfl⟩

/-- Object `a` and object `b` list a common function. -/
def Shares (a b : Obj) : Prop := ∃ f ∈ a.fns, f ∈ b.fns

/-- The situations in which an operation keeps all bookkeeping in step. What is excluded:
changing the evaluation method of, reordering, or copying a variable structure into a differentiated system; copying, moving, swapping (or concatenating
nothing to) a system that was differentiated for straight-line evaluation; `+=`, `*=`, `a+b`, `N*s`
and `Homogenize` when another differentiated system (or, for the arithmetic, the system itself)
shares one of the functions. -/
def Safe (w : World) : SysOp → Prop
  | .setMethod i m => m = (w.objs i).method ∨
      ((w.objs i).diffed = false ∧ (m = .functionTree → (w.objs i).prog.fns = []))
  | .reorder i _ | .copyStructure i _ => (w.objs i).diffed = false
  | .copy i _ | .move i _ => ¬ ((w.objs i).diffed = true ∧ (w.objs i).method = .slp)
  | .swap i k => ¬ ((w.objs i).diffed = true ∧ (w.objs i).method = .slp) ∧
      ¬ ((w.objs k).diffed = true ∧ (w.objs k).method = .slp) ∧
      ((w.objs i).method = .functionTree → (w.objs k).prog.fns = []) ∧
      ((w.objs k).method = .functionTree → (w.objs i).prog.fns = [])
  | .concatenate i j _ =>
      ¬ ((w.objs j).fns = [] ∧ (w.objs i).diffed = true ∧ (w.objs i).method = .slp)
  | .plusAssign i _ | .timesAssign i _ =>
      ∀ k, Shares (w.objs k) (w.objs i) → (w.objs k).diffed = false
  | .plus i _ _ | .times i _ _ => ¬ ((w.objs i).diffed = true ∧ (w.objs i).method = .slp) ∧
      ∀ k, Shares (w.objs k) (w.objs i) → (w.objs k).diffed = false
  | .homogenize i _ => ∀ k, k ≠ i → Shares (w.objs k) (w.objs i) → (w.objs k).diffed = false
  | _ => True

theorem plusRoots_off : ∀ (fs gs : List ℕ) (heap heap' : ℕ → Node), plusRoots fs gs heap = some heap' →
    ∀ f, f ∉ fs → heap' f = heap f := by
  intro fs
  induction fs with
  | nil => intro gs heap heap' h f _; simp only [plusRoots, Option.some.injEq] at h; rw [h]
  | cons a fs ih =>
    intro gs heap heap' h f hf
    cases gs with
    | nil => simp [plusRoots] at h
    | cons g gs =>
      simp only [List.mem_cons, not_or] at hf
      rw [ih gs _ heap' h f hf.2, Function.update_of_ne hf.1]

theorem timesRoots_off (N : Node) : ∀ (fs : List ℕ) (heap : ℕ → Node) (f : ℕ), f ∉ fs →
    timesRoots N fs heap f = heap f := by
  intro fs
  induction fs with
  | nil => intro heap f _; rfl
  | cons a fs ih =>
    intro heap f hf
    simp only [List.mem_cons, not_or] at hf
    rw [timesRoots, ih _ f hf.2, Function.update_of_ne hf.1]

theorem homRoots_off (cur : Env) (g : List Var) (h : Var) : ∀ (fs : List ℕ) (heap heap' : ℕ → Node),
    homRoots cur g h fs heap = some heap' → ∀ f, f ∉ fs → heap' f = heap f := by
  intro fs
  induction fs with
  | nil => intro heap heap' h f _; simp only [homRoots, Option.some.injEq] at h; rw [h]
  | cons a fs ih =>
    intro heap heap' h f hf
    simp only [homRoots, Option.bind_eq_some_iff] at h
    obtain ⟨n, _, h⟩ := h
    simp only [List.mem_cons, not_or] at hf
    rw [ih _ heap' h f hf.2, Function.update_of_ne hf.1]

theorem homGroupsLoop_off (cur : Env) (ids : List ℕ) : ∀ (gs : List (List Var × Var))
    (heap heap' : ℕ → Node), homGroupsLoop cur ids gs heap = some heap' →
    ∀ f, f ∉ ids → heap' f = heap f := by
  intro gs
  induction gs with
  | nil => intro heap heap' h f _; simp only [homGroupsLoop, Option.some.injEq] at h; rw [h]
  | cons a gs ih =>
    intro heap heap' h f hf
    simp only [homGroupsLoop, Option.bind_eq_some_iff] at h
    obtain ⟨h1, hh, h⟩ := h
    rw [ih _ heap' h f hf, homRoots_off _ _ _ _ _ _ hh f hf]

theorem roots_of_off {w w' : World} {o : Obj} (h : ∀ f ∈ o.fns, w'.heap f = w.heap f) :
    w'.roots o = w.roots o := List.map_congr_left h

/-- Changing object `i` (and functions only it uses while differentiated) keeps the invariant. -/
theorem Good.change {simp : Node → Node} {w w' : World} {i : ℕ} (hg : Good simp w)
    (hn : w.next ≤ w'.next) (ho : ∀ k, k ≠ i → w'.objs k = w.objs k)
    (hr : ∀ k, k ≠ i → (w.objs k).diffed = true → w'.roots (w.objs k) = w.roots (w.objs k))
    (hs : Sync simp w' (w'.objs i)) (hb : ∀ f ∈ (w'.objs i).fns, f < w'.next) : Good simp w' where
  sync := fun k => by
    by_cases hk : k = i
    · subst hk; exact hs
    · rw [ho k hk]; exact (hg.sync k).congr (hr k hk)
  bound := fun k => by
    by_cases hk : k = i
    · subst hk; exact hb
    · rw [ho k hk]; intro f hf; exact lt_of_lt_of_le (hg.bound k f hf) hn

/-- The same when the heap does not change. -/
theorem Good.setObj {simp : Node → Node} {w : World} {i : ℕ} {o : Obj} (hg : Good simp w)
    (hs : Sync simp w o) (hb : ∀ f ∈ o.fns, f < w.next) : Good simp (w.set i o) :=
  hg.change (i := i) (le_refl _) (fun k hk => by simp [World.set, Function.update_of_ne hk])
    (fun k _ _ => rfl)
    (by simpa [World.set] using hs.congr (w' := w.set i o) fun _ => rfl)
    (by simpa [World.set] using hb)

theorem copy_sync {simp : Node → Node} {w : World} {o : Obj} (h : Sync simp w o)
    (hs : ¬ (o.diffed = true ∧ o.method = .slp)) : Sync simp w o.copy := by
  refine ⟨?_, fun _ => rfl⟩
  intro hd
  obtain ⟨vars, h1, h2, h3, h4⟩ := h.derivs hd
  exact ⟨vars, h1, h2, h3, fun hm => absurd ⟨hd, hm⟩ hs⟩

theorem swapped_sync {simp : Node → Node} {w : World} {o a : Obj} (h : Sync simp w o)
    (hs : ¬ (o.diffed = true ∧ o.method = .slp)) (ha : o.method = .functionTree → a.prog.fns = []) :
    Sync simp w (a.swapped o) := by
  refine ⟨?_, ha⟩
  intro hd
  obtain ⟨vars, h1, h2, h3, h4⟩ := h.derivs hd
  exact ⟨vars, h1, h2, h3, fun hm => absurd ⟨hd, hm⟩ hs⟩

theorem jacStored_touched {simp : Node → Node} {w w' : World} {i : ℕ} {out J : List (List ℂ)}
    (hs : Sync simp w (w.objs i)) (h : jacStored simp w i out = some (J, w')) :
    Touched simp w w' i := by
  unfold jacStored at h
  simp only [Option.bind_eq_bind, Option.bind_eq_some_iff] at h
  obtain ⟨vars, hv, h⟩ := h
  split_ifs at h
  simp only [Option.bind_eq_some_iff, Option.some.injEq, Prod.mk.injEq] at h
  obtain ⟨o, ho, rows, hrows, out2, hout2, out3, hout3, _, h⟩ := h
  obtain ⟨h1, h2, h3, h4, h5, h6, h7, h8, h9⟩ := ensureDiff_sync hs ho
  subst h
  refine ⟨rfl, rfl, ?_, ?_, ?_, ?_, ?_, ?_, ?_, ?_, ?_⟩
  · intro k hk; simp [World.set, Function.update_of_ne hk]
  all_goals simp only [World.set, Function.update_self]
  · exact h3
  · exact h4
  · exact h5
  · exact h6
  · exact h7
  · exact h8
  · exact h2
  · exact h1.ext rfl rfl rfl rfl rfl rfl rfl rfl rfl rfl rfl rfl rfl

theorem mapM_getElem_mem {β : Type} {l : List β} : ∀ {ind : List ℕ} {r : List β},
    (ind.mapM fun k => l[k]?) = some r → ∀ a ∈ r, a ∈ l := by
  intro ind
  induction ind with
  | nil => intro r h; simp at h; subst h; simp
  | cons k ind ih =>
    intro r h
    simp only [List.mapM_cons, Option.bind_eq_bind, Option.bind_eq_some_iff, Option.pure_def,
      Option.some.injEq] at h
    obtain ⟨a, ha, r', hr', rfl⟩ := h
    intro b hb
    rcases List.mem_cons.1 hb with rfl | hb
    · exact List.mem_of_getElem? ha
    · exact ih hr' b hb

theorem evalAt_touched {simp : Node → Node} {w w' : World} {i : ℕ} {junk x v : List ℂ}
    (hs : Sync simp w (w.objs i)) (h : evalAt simp w i junk x = some (v, w')) :
    Touched simp w w' i := by
  unfold evalAt at h
  simp only [Option.bind_eq_bind, Option.bind_eq_some_iff] at h
  obtain ⟨vars, hv, h⟩ := h
  split_ifs at h
  simp only [Option.bind_eq_some_iff, Option.map_eq_some_iff, Prod.mk.injEq] at h
  obtain ⟨w1, h1, v', _, _, rfl⟩ := h
  obtain ⟨_, _, _, ht, _⟩ := setVariables_some hs h1
  exact ht

theorem evalAtTime_touched {simp : Node → Node} {w w' : World} {i : ℕ} {junk x v : List ℂ} {t : ℂ}
    (hs : Sync simp w (w.objs i)) (h : evalAtTime simp w i junk x t = some (v, w')) :
    Touched simp w w' i := by
  unfold evalAtTime at h
  simp only [Option.bind_eq_bind, Option.bind_eq_some_iff] at h
  obtain ⟨vars, hv, h⟩ := h
  split_ifs at h
  simp only [Option.bind_eq_some_iff, Option.map_eq_some_iff, Prod.mk.injEq] at h
  obtain ⟨w1, h1, w2, h2, v', _, _, rfl⟩ := h
  obtain ⟨_, _, _, ht, _⟩ := setVariables_some hs h1
  obtain ⟨_, _, ht2, _⟩ := setPath_some ht.sync ht.diffed h2
  exact ht.trans ht2

theorem jacAt_touched {simp : Node → Node} {w w' : World} {i : ℕ} {junk J : List (List ℂ)} {x : List ℂ}
    (hs : Sync simp w (w.objs i)) (h : jacAt simp w i junk x = some (J, w')) :
    Touched simp w w' i := by
  unfold jacAt at h
  simp only [Option.bind_eq_bind, Option.bind_eq_some_iff] at h
  obtain ⟨vars, hv, h⟩ := h
  split_ifs at h
  simp only [Option.bind_eq_some_iff] at h
  obtain ⟨w1, h1, h2⟩ := h
  obtain ⟨_, _, _, ht, _⟩ := setVariables_some hs h1
  exact ht.trans (jacStored_touched ht.sync h2)

theorem jacAtTime_touched {simp : Node → Node} {w w' : World} {i : ℕ} {junk J : List (List ℂ)}
    {x : List ℂ} {t : ℂ}
    (hs : Sync simp w (w.objs i)) (h : jacAtTime simp w i junk x t = some (J, w')) :
    Touched simp w w' i := by
  unfold jacAtTime at h
  simp only [Option.bind_eq_bind, Option.bind_eq_some_iff] at h
  obtain ⟨vars, hv, h⟩ := h
  split_ifs at h
  simp only [Option.bind_eq_some_iff] at h
  obtain ⟨w1, h1, w2, h2, h3⟩ := h
  obtain ⟨_, _, _, ht, _⟩ := setVariables_some hs h1
  obtain ⟨_, _, ht2, _⟩ := setPath_some ht.sync ht.diffed h2
  exact (ht.trans ht2).trans (jacStored_touched ht2.sync h3)

theorem timeStored_touched {simp : Node → Node} {w w' : World} {i : ℕ} {out J : List ℂ}
    (hs : Sync simp w (w.objs i)) (h : timeStored simp w i out = some (J, w')) :
    Touched simp w w' i := by
  unfold timeStored at h
  simp only [Option.bind_eq_bind] at h
  split_ifs at h
  simp only [Option.bind_eq_some_iff] at h
  obtain ⟨o, ho, a, ha, b, hb, c, hc, h⟩ := h
  simp only [Option.some.injEq, Prod.mk.injEq] at h
  obtain ⟨rfl, rfl⟩ := h
  obtain ⟨h1, h2, h3, h4, h5, h6, h7, h8, h9⟩ := ensureDiff_sync hs ho
  exact ⟨rfl, rfl, fun k hk => by simp [World.set, Function.update_of_ne hk],
    by simpa [World.set] using h3, by simpa [World.set] using h4, by simpa [World.set] using h5,
    by simpa [World.set] using h6, by simpa [World.set] using h7, by simpa [World.set] using h8,
    by simpa [World.set] using h2,
    by simpa [World.set] using h1.congr (w' := w.set i o) fun _ => rfl⟩

theorem timeAt_touched {simp : Node → Node} {w w' : World} {i : ℕ} {junk J x : List ℂ} {t : ℂ}
    (hs : Sync simp w (w.objs i)) (h : timeAt simp w i junk x t = some (J, w')) :
    Touched simp w w' i := by
  unfold timeAt at h
  simp only [Option.bind_eq_bind, Option.bind_eq_some_iff] at h
  obtain ⟨w1, h1, w2, h2, h⟩ := h
  obtain ⟨_, _, _, t1, _⟩ := setVariables_some hs h1
  obtain ⟨_, _, t2, _⟩ := setPath_some t1.sync t1.diffed h2
  exact (t1.trans t2).trans (timeStored_touched t2.sync h)

theorem plusAssign_good {simp : Node → Node} {w w' : World} {i j : ℕ} (hg : Good simp w)
    (hs : ∀ k, Shares (w.objs k) (w.objs i) → (w.objs k).diffed = false)
    (h : plusAssign w i j = some w') : Good simp w' := by
  unfold plusAssign at h
  simp only [Option.bind_eq_bind] at h
  split_ifs at h with h1 h2 h3 <;> simp only [Option.bind_eq_some_iff, Option.some.injEq] at h
  all_goals
    obtain ⟨heap, hh, h⟩ := h
    subst h
    have hoff := plusRoots_off _ _ _ _ hh
    have hroots : ∀ k, (w.objs k).diffed = true →
        ({ w with heap := heap } : World).roots (w.objs k) = w.roots (w.objs k) := by
      intro k hd
      refine roots_of_off fun f hf => hoff f fun hf' => ?_
      have := hs k ⟨f, hf, hf'⟩
      rw [this] at hd; simp at hd
    refine hg.change (i := i) (le_refl _) ?_ ?_ ?_ ?_
    · intro k hk; simp [World.set, Function.update_of_ne hk]
    · intro k _ hd; exact hroots k hd
    · simp only [World.set, Function.update_self]
      exact ((hg.sync i).congr (hroots i)).ext rfl rfl rfl rfl rfl rfl rfl rfl rfl rfl rfl rfl rfl
    · simp only [World.set, Function.update_self]
      exact hg.bound i

theorem timesAssign_good {simp : Node → Node} {w : World} {i : ℕ} {N : Node} (hg : Good simp w)
    (hs : ∀ k, Shares (w.objs k) (w.objs i) → (w.objs k).diffed = false) :
    Good simp (timesAssign w i N) := by
  have hroots : ∀ k, (w.objs k).diffed = true →
      (timesAssign w i N).roots (w.objs k) = w.roots (w.objs k) := by
    intro k hd
    refine roots_of_off fun f hf => timesRoots_off N _ _ f fun hf' => ?_
    have := hs k ⟨f, hf, hf'⟩
    rw [this] at hd; simp at hd
  exact ⟨fun k => (hg.sync k).congr (hroots k), hg.bound⟩

theorem shares_copy {w : World} {i k : ℕ}
    (hs : ∀ l, Shares (w.objs l) (w.objs i) → (w.objs l).diffed = false) :
    ∀ l, Shares ((w.set k (w.objs i).copy).objs l) ((w.set k (w.objs i).copy).objs k) →
      ((w.set k (w.objs i).copy).objs l).diffed = false := by
  intro l hl
  by_cases hlk : l = k
  · subst hlk
    simp only [World.set, Function.update_self, Obj.copy] at hl ⊢
    exact hs i hl
  · simp only [World.set, Function.update_self, Function.update_of_ne hlk] at hl ⊢
    exact hs l hl

theorem concatenate_some {w w' : World} {i j k : ℕ} (h : concatenate w i j k = some w') :
    ∃ vars, (w.objs i).vars = some vars ∧ (w.objs j).vars = some vars ∧
      (w.objs i).vs.numVariables = (w.objs j).vs.numVariables ∧
      ¬ ((w.objs i).patched ∧ (w.objs j).patched ∧ (w.objs i).patch ≠ (w.objs j).patch) ∧
      ¬ ((w.objs j).patched ∧ ¬ (w.objs i).patched) ∧
      w' = w.set k { (w.objs i).copy with
        fns := (w.objs i).fns ++ (w.objs j).fns
        diffed := if (w.objs j).fns = [] then (w.objs i).diffed else false } := by
  unfold concatenate at h
  simp only [Option.bind_eq_bind] at h
  by_cases h1 : (w.objs i).copy.vs.numVariables ≠ (w.objs j).vs.numVariables
  · rw [if_pos h1] at h; simp at h
  rw [if_neg h1] at h
  simp only [Option.bind_eq_some_iff] at h
  obtain ⟨va, hva, vb, hvb, h⟩ := h
  by_cases h2 : va ≠ vb
  · rw [if_pos h2] at h; simp at h
  rw [if_neg h2] at h
  by_cases h3 : (w.objs i).copy.patched ∧ (w.objs j).patched ∧ (w.objs i).copy.patch ≠ (w.objs j).patch
  · rw [if_pos h3] at h; simp at h
  rw [if_neg h3] at h
  by_cases h4 : (w.objs j).patched ∧ ¬ (w.objs i).copy.patched
  · rw [if_pos h4] at h; simp at h
  rw [if_neg h4] at h
  push Not at h2 h1
  subst h2
  exact ⟨va, hva, hvb, h1, h3, h4, (Option.some.inj h).symm⟩

theorem homogenize_some {fresh : ℕ → Var} {w w' : World} {i : ℕ}
    (h : homogenize fresh w i = some w') :
    ∃ vs heap, (∀ f ∈ w.roots (w.objs i), ∀ g ∈ (w.objs i).vs.homGroups, isHom w.vals g f) ∧
      (w.objs i).vs.homogenize fresh = some vs ∧ systemIsPoly w (w.objs i) ∧
      homGroupsLoop w.vals (w.objs i).fns (homArgs fresh (w.objs i).vs) w.heap = some heap ∧
      w' = ({ w with heap := heap } : World).set i { w.objs i with vs := vs, diffed := false } := by
  unfold homogenize at h
  simp only [Option.bind_eq_bind] at h
  by_cases h1 : ¬ ∀ f ∈ w.roots (w.objs i), ∀ g ∈ (w.objs i).vs.homGroups, isHom w.vals g f
  · rw [if_pos h1] at h; simp at h
  rw [if_neg h1] at h
  simp only [Option.bind_eq_some_iff] at h
  obtain ⟨vs, hvs, h⟩ := h
  by_cases h2 : ¬ systemIsPoly w (w.objs i)
  · rw [if_pos h2] at h; simp at h
  rw [if_neg h2] at h
  simp only [Option.bind_eq_some_iff, Option.some.injEq] at h
  obtain ⟨heap, hh, h⟩ := h
  exact ⟨vs, heap, not_not.1 h1, hvs, not_not.1 h2, hh, h.symm⟩

/-- Safe operations keep the invariant. -/
theorem step_good {simp : Node → Node} {w w' : World} {op : SysOp} (hg : Good simp w)
    (hs : Safe w op) (h : step simp w op = some w') : Good simp w' := by
  cases op with
  | create i m =>
    simp only [step, Option.some.injEq] at h
    subst h
    exact hg.setObj (Sync.undiffed rfl fun _ => rfl) (by simp [Obj.new])
  | addFunction i n =>
    simp only [step, Option.some.injEq] at h
    subst h
    have hroot : ∀ k, ({ w with heap := Function.update w.heap w.next n } : World).roots (w.objs k) =
        w.roots (w.objs k) := fun k => roots_of_off fun f hf => by
      have := hg.bound k f hf
      simp [Function.update_of_ne (show f ≠ w.next by omega)]
    refine hg.change (i := i) (Nat.le_succ _) ?_ ?_ ?_ ?_
    · intro k hk; simp [World.set, Function.update_of_ne hk]
    · intro k _ _; exact hroot k
    · simp only [World.set, Function.update_self]
      exact Sync.undiffed rfl (hg.sync i).noProg
    · simp only [World.set, Function.update_self]
      intro f hf
      rcases List.mem_append.1 hf with hf | hf
      · exact Nat.lt_succ_of_lt (hg.bound i f hf)
      · simp at hf; omega
  | addSharedFunction i f =>
    simp only [step] at h
    split_ifs at h with hf
    simp only [Option.some.injEq] at h
    subst h
    refine hg.setObj (Sync.undiffed rfl (hg.sync i).noProg) ?_
    intro g hgm
    rcases List.mem_append.1 hgm with hgm | hgm
    · exact hg.bound i g hgm
    · simp at hgm; omega
  | varOp i f =>
    simp only [step, Option.some.injEq] at h
    subst h
    exact hg.setObj (Sync.undiffed rfl (hg.sync i).noProg) (hg.bound i)
  | addPath i t =>
    simp only [step, Option.some.injEq] at h
    subst h
    exact hg.setObj (Sync.undiffed rfl (hg.sync i).noProg) (hg.bound i)
  | patch i cs =>
    simp only [step, Option.some.injEq] at h
    subst h
    exact hg.setObj ((hg.sync i).ext rfl rfl rfl rfl rfl rfl rfl rfl rfl rfl rfl rfl rfl) (hg.bound i)
  | setMethod i m =>
    simp only [step, Option.some.injEq] at h
    subst h
    refine hg.setObj ?_ (hg.bound i)
    rcases hs with hs | ⟨hd, hp⟩
    · exact (hg.sync i).ext rfl rfl rfl rfl rfl rfl rfl hs rfl rfl rfl rfl rfl
    · exact Sync.undiffed hd hp
  | reorder i ind =>
    simp only [step, Option.map_eq_some_iff] at h
    obtain ⟨o, ho, rfl⟩ := h
    unfold Obj.permute at ho
    simp only [Option.map_eq_some_iff] at ho
    obtain ⟨fs, hfs, rfl⟩ := ho
    refine hg.setObj (Sync.undiffed hs (hg.sync i).noProg) ?_
    intro f hf
    exact hg.bound i f (mapM_getElem_mem hfs f hf)
  | copy i k =>
    simp only [step, Option.some.injEq] at h
    subst h
    exact hg.setObj (copy_sync (hg.sync i) hs) (hg.bound i)
  | swap i k =>
    simp only [step, Option.some.injEq] at h
    subst h
    refine (hg.setObj (swapped_sync (hg.sync k) hs.2.1 hs.2.2.2) (hg.bound k)).setObj ?_ (hg.bound i)
    exact (swapped_sync (hg.sync i) hs.1 hs.2.2.1).congr fun _ => rfl
  | move i k =>
    simp only [step] at h
    by_cases hik : i = k
    · rw [if_pos hik] at h; simp at h
    · rw [if_neg hik, Option.some.injEq] at h
      subst h
      refine (hg.setObj (i := i) (Sync.undiffed rfl (by simp [Obj.swapped, Obj.new]))
        (by simp [Obj.swapped, Obj.new])).setObj ?_ (hg.bound i)
      exact (swapped_sync (hg.sync i) hs fun _ => rfl).congr fun _ => rfl
  | plusAssign i j => exact plusAssign_good hg hs h
  | plus i j k =>
    simp only [step, plusNew] at h
    refine plusAssign_good (hg.setObj (i := k) (copy_sync (hg.sync i) hs.1) (hg.bound i)) ?_ h
    exact shares_copy hs.2
  | timesAssign i N =>
    simp only [step, Option.some.injEq] at h
    subst h
    exact timesAssign_good hg hs
  | times i N k =>
    simp only [step, timesNew, Option.some.injEq] at h
    subst h
    exact timesAssign_good (hg.setObj (i := k) (copy_sync (hg.sync i) hs.1) (hg.bound i))
      (shares_copy hs.2)
  | concatenate i j k =>
    obtain ⟨vars, _, _, _, _, _, h⟩ := concatenate_some h
    subst h
    refine hg.setObj ?_ ?_
    · by_cases he : (w.objs j).fns = []
      · have hc := copy_sync (hg.sync i) (fun hh => hs ⟨he, hh⟩)
        exact hc.ext rfl rfl rfl (by simp [he, Obj.copy]) (by simp [he, Obj.copy]) rfl rfl rfl rfl rfl rfl rfl rfl
      · exact Sync.undiffed (by simp [he]) fun _ => rfl
    · intro f hf
      rcases List.mem_append.1 hf with hf | hf
      · exact hg.bound i f hf
      · exact hg.bound j f hf
  | copyStructure i j =>
    simp only [step, Option.some.injEq] at h
    subst h
    exact hg.setObj (Sync.undiffed hs (hg.sync i).noProg) (hg.bound i)
  | homogenize i fresh =>
    obtain ⟨vs, heap, _, _, _, hh, h⟩ := homogenize_some h
    subst h
    have hoff := homGroupsLoop_off _ _ _ _ _ hh
    refine hg.change (i := i) (le_refl _) ?_ ?_ ?_ ?_
    · intro k hk; simp [World.set, Function.update_of_ne hk]
    · intro k hk hd
      refine roots_of_off fun f hf => hoff f fun hf' => ?_
      have := hs k hk ⟨f, hf, hf'⟩
      rw [this] at hd; simp at hd
    · simp only [World.set, Function.update_self]
      exact Sync.undiffed rfl (hg.sync i).noProg
    · simp only [World.set, Function.update_self]
      exact hg.bound i
  | eval i junk x =>
    simp only [step, Option.map_eq_some_iff] at h
    obtain ⟨⟨v, w''⟩, h, rfl⟩ := h
    exact (evalAt_touched (hg.sync i) h).good hg
  | evalTime i junk x t =>
    simp only [step, Option.map_eq_some_iff] at h
    obtain ⟨⟨v, w''⟩, h, rfl⟩ := h
    exact (evalAtTime_touched (hg.sync i) h).good hg
  | jacobian i junk x =>
    simp only [step, Option.map_eq_some_iff] at h
    obtain ⟨⟨v, w''⟩, h, rfl⟩ := h
    exact (jacAt_touched (hg.sync i) h).good hg
  | jacobianTime i junk x t =>
    simp only [step, Option.map_eq_some_iff] at h
    obtain ⟨⟨v, w''⟩, h, rfl⟩ := h
    exact (jacAtTime_touched (hg.sync i) h).good hg
  | timeDerivative i junk x t =>
    simp only [step, Option.map_eq_some_iff] at h
    obtain ⟨⟨v, w''⟩, h, rfl⟩ := h
    exact (timeAt_touched (hg.sync i) h).good hg

theorem blit_all {β : Type} {a out : List β} (h : a.length ≤ out.length) :
    blit a out = some (a ++ out.drop a.length) := by simp [blit, h]

theorem mapM_some {β γ : Type} {f : β → Option γ} {g : β → γ} : ∀ (l : List β),
    (∀ a ∈ l, f a = some (g a)) → l.mapM f = some (l.map g) := by
  intro l
  induction l with
  | nil => intro _; rfl
  | cons a l ih =>
    intro h
    simp [List.mapM_cons, h a (by simp), ih fun b hb => h b (by simp [hb])]

theorem spaceDerivs_get (simp : Node → Node) (fs : List Node) : ∀ (vars : List Var) (a b : ℕ)
    (f : Node) (v : Var), fs[a]? = some f → vars[b]? = some v →
    (spaceDerivs simp vars fs)[a + b * fs.length]? = some (simp (diff v f)) := by
  intro vars
  induction vars with
  | nil => intro a b f v _ h; simp at h
  | cons u vars ih =>
    intro a b f v hf hv
    have ha : a < fs.length := (List.getElem?_eq_some_iff.1 hf).1
    cases b with
    | zero =>
      simp only [List.getElem?_cons_zero, Option.some.injEq] at hv
      subst hv
      simp only [spaceDerivs, List.flatMap_cons, Nat.zero_mul, Nat.add_zero]
      rw [List.getElem?_append_left (by simpa using ha)]
      simp [hf]
    | succ b =>
      simp only [List.getElem?_cons_succ] at hv
      simp only [spaceDerivs, List.flatMap_cons]
      rw [List.getElem?_append_right (by simp; nlinarith)]
      have := ih a b f v hf hv
      simp only [spaceDerivs] at this
      rw [← this]
      congr 1
      simp only [List.length_map]
      have : (b + 1) * fs.length = b * fs.length + fs.length := by ring
      omega

theorem jacRows_spaceDerivs (simp : Node → Node) (fs : List Node) (vars : List Var) (env : Env) :
    jacRows (spaceDerivs simp vars fs) env fs.length vars.length =
      some (fs.map fun f => vars.map fun v => eval env (simp (diff v f))) := by
  have key : ∀ ii, ∀ f, fs[ii]? = some f → (List.range vars.length).mapM (fun jj =>
      ((spaceDerivs simp vars fs)[ii + jj * fs.length]?).map (eval env)) =
      some (vars.map fun v => eval env (simp (diff v f))) := by
    intro ii f hf
    rw [mapM_some (g := fun jj => match vars[jj]? with
      | some v => eval env (simp (diff v f)) | none => 0)]
    · congr 1
      apply List.ext_getElem
      · simp
      · intro n h1 h2
        have : n < vars.length := by simpa using h1
        simp [List.getElem?_eq_getElem this]
    · intro jj hjj
      have hj : jj < vars.length := by simpa using hjj
      rw [spaceDerivs_get simp fs vars ii jj f vars[jj] hf (List.getElem?_eq_getElem hj)]
      simp [List.getElem?_eq_getElem hj]
  unfold jacRows
  rw [mapM_some (g := fun ii => match fs[ii]? with
      | some f => vars.map fun v => eval env (simp (diff v f)) | none => [])]
  · congr 1
    apply List.ext_getElem
    · simp
    · intro n h1 h2
      have : n < fs.length := by simpa using h1
      simp [List.getElem?_eq_getElem this]
  · intro ii hii
    have hi : ii < fs.length := by simpa using hii
    rw [key ii fs[ii] (List.getElem?_eq_getElem hi)]
    simp [List.getElem?_eq_getElem hi]

theorem blit2_all {β : Type} : ∀ (a top rest : List (List β)),
    List.Forall₂ (fun r o => r.length = o.length) a top →
    blit2 a (top ++ rest) = some (a ++ rest) := by
  intro a
  induction a with
  | nil => intro top rest h; cases h; simp [blit2]
  | cons r a ih =>
    intro top rest h
    cases h with
    | @cons _ o _ os h1 h2 =>
      simp only [List.cons_append, blit2, Option.bind_eq_bind]
      rw [blit_all (by omega), Option.bind_some, ih os rest h2]
      simp [h1]

end B2.Sys
