import Verif.System.DerivMethod
import Verif.System.StateProof
import Verif.Tree.TotalProof

/-!
# Property C171: derivatives do not depend on how the system computes them

`DSys.run M ops DSys.new` is a system after any sequence of operations; `env` gives the variables their values.
-/

namespace B2.Sys

open Classical

/-! ### Specification -/

/-- `J` is the Jacobian matrix of the functions `fns` with respect to `vars` at `env`. -/
def IsJac (fns : List Node) (vars : List Var) (env : Env) (J : List (List ℂ)) : Prop :=
  List.Forall₂ (fun f row => List.Forall₂ (fun v d => IsPartialDeriv f v env d) vars row) fns J

/-- `d` is the vector of derivatives of the functions `fns` with respect to `t` at `env`. -/
def IsTimeDeriv (fns : List Node) (t : Var) (env : Env) (d : List ℂ) : Prop :=
  List.Forall₂ (fun f x => IsPartialDeriv f t env x) fns d

/-- The system can be differentiated at `env`: its functions are made of its variables (and the path variable), none of which is a
differential, and the rules of differentiation apply (C01). -/
structure Regular (M : Marks) (s : DSys) (env : Env) : Prop where
  closed : ∀ f ∈ s.fns, Closed s.vars s.path f
  unmarked : ∀ f ∈ s.fns, Unmarked M f
  smooth : ∀ f ∈ s.fns, Smooth env f
  expFree : ∀ f ∈ s.fns, ∀ v, ExpFree v f

/-- The matrix passed in has the right size. -/
def Fits (s : DSys) (junk : List (List ℂ)) : Prop :=
  junk.length = s.fns.length ∧ ∀ r ∈ junk, r.length = s.vars.length

/-- **C171, full statement.** After any sequence of operations, `Jacobian` returns the matrix of partial derivatives of the functions
of the system, and `TimeDerivative` the vector of their derivatives by the path variable; whatever the methods of evaluation and
differentiation are and were. -/
def C171_full : Prop :=
  ∀ (M : Marks) (ops : List DOp) (s : DSys), DSys.run M ops DSys.new = some s → ∀ env, Regular M s env →
    (∀ junk, Fits s junk → ∃ J s', s.jacobian M env junk = some (J, s') ∧ IsJac s.fns s.vars env J) ∧
    ∀ t, s.path = some t → ∀ junk : List ℂ, junk.length = s.fns.length →
      ∃ d s', s.timeDerivative M env junk = some (d, s') ∧ IsTimeDeriv s.fns t env d

/-! ### Proof of the partial statement -/

/-- What is left by `Differentiate()`, for the methods in force. -/
structure InStep (M : Marks) (s : DSys) : Prop where
  nodes : s.emethod = .functionTree → s.dmethod = .jacobianNode → s.jac = s.fns.map (differentiateNode M none)
  trees : s.emethod = .functionTree → s.dmethod = .derivatives →
    s.dx = spaceDerivs id s.vars s.fns ∧ ∀ t, s.path = some t → s.dt = s.fns.map (diff t)
  prog : s.emethod = .slp → s.prog.vars = s.vars ∧ s.prog.fns = s.fns ∧ s.prog.dx = spaceDerivs id s.vars s.fns ∧
    (s.dmethod = .derivatives → ∀ t, s.path = some t → s.prog.dt = s.fns.map (diff t)) ∧
    (s.dmethod = .jacobianNode → ∀ t, s.path = some t → s.prog.dt = s.fns.map fun _ => .int 0)

/-- Derivatives, if present, belong to the functions. -/
def Good' (M : Marks) (s : DSys) : Prop := s.diffed = true → InStep M s

/-- The operation keeps derivatives and methods together: methods are changed, derivatives asked for by `GetSpaceDerivatives`, and
copies made only when nothing has been derived yet (or nothing that depends on the choice). -/
def DSafe (s : DSys) : DOp → Prop
  | .setEval m => s.diffed = false ∨ m = s.emethod
  | .setDeriv m => s.diffed = false ∨ m = s.dmethod
  | .get => s.diffed = true ∨ (s.emethod = .functionTree ∧ s.dmethod = .derivatives)
  | .copy => s.diffed = false ∨ (s.emethod = .functionTree ∧ s.dmethod = .derivatives)
  | _ => True

/-- A history of such operations. -/
def DSafeRun (M : Marks) : List DOp → DSys → Prop
  | [], _ => True
  | op :: ops, s => DSafe s op ∧ ∀ s', s.step M op = some s' → DSafeRun M ops s'

theorem useDerivatives_dx (M : Marks) (s : DSys) : (s.useDerivatives M).dx = spaceDerivs id s.vars s.fns := by
  simp only [DSys.useDerivatives, spaceDerivs, id]
  congr 1
  funext v
  exact List.map_congr_left fun f _ => diffWith_leaf M v f

theorem useDerivatives_dt (M : Marks) (s : DSys) (t : Var) (ht : s.path = some t) :
    (s.useDerivatives M).dt = s.fns.map (diff t) := by
  simp only [DSys.useDerivatives, ht]
  exact List.map_congr_left fun f _ => diffWith_leaf M t f

/-- The members that `Differentiate` does not touch. -/
structure Same (s s' : DSys) : Prop where
  fns : s'.fns = s.fns
  vars : s'.vars = s.vars
  path : s'.path = s.path
  emethod : s'.emethod = s.emethod
  dmethod : s'.dmethod = s.dmethod

theorem Same.refl (s : DSys) : Same s s := ⟨rfl, rfl, rfl, rfl, rfl⟩

theorem fill_same (M : Marks) (s : DSys) : Same s (s.fillContainers M) ∧ (s.fillContainers M).diffed = true := by
  unfold DSys.fillContainers
  cases s.dmethod <;> exact ⟨⟨rfl, rfl, rfl, rfl, rfl⟩, rfl⟩

theorem get_same (M : Marks) (s : DSys) : Same s (s.getDerivatives M) := by
  unfold DSys.getDerivatives
  split_ifs
  · exact ⟨rfl, rfl, rfl, rfl, rfl⟩
  · exact Same.refl s

/-- After filling the containers, `GetSpaceDerivatives` returns the derivatives. -/
theorem fill_get (M : Marks) (s : DSys) :
    ((s.fillContainers M).getDerivatives M).dx = spaceDerivs id s.vars s.fns ∧
      (∀ t, s.path = some t → ((s.fillContainers M).getDerivatives M).dt = s.fns.map (diff t)) ∧
      ((s.fillContainers M).getDerivatives M).diffed = true := by
  cases hd : s.dmethod with
  | derivatives =>
    have e : (s.fillContainers M).getDerivatives M = s.useDerivatives M := by
      have h1 : s.fillContainers M = s.useDerivatives M := by unfold DSys.fillContainers; rw [hd]
      rw [h1]
      unfold DSys.getDerivatives
      rw [if_neg]
      simp [DSys.useDerivatives, hd]
    rw [e]
    exact ⟨useDerivatives_dx M s, useDerivatives_dt M s, rfl⟩
  | jacobianNode =>
    have h1 : s.fillContainers M = s.useJacobianNode M := by unfold DSys.fillContainers; rw [hd]
    have e : (s.fillContainers M).getDerivatives M = (s.useJacobianNode M).useDerivatives M := by
      rw [h1]
      unfold DSys.getDerivatives
      rw [if_pos (Or.inl (by simpa [DSys.useJacobianNode] using hd))]
    rw [e]
    refine ⟨?_, fun t ht => ?_, rfl⟩
    · exact useDerivatives_dx M (s.useJacobianNode M)
    · exact useDerivatives_dt M (s.useJacobianNode M) t ht

theorem differentiate_ok (M : Marks) (s : DSys) (hc : s.emethod = .slp → ∀ f ∈ s.fns, Closed s.vars s.path f) :
    ∃ s', s.differentiate M = some s' := by
  unfold DSys.differentiate
  cases he : s.emethod with
  | functionTree => exact ⟨_, rfl⟩
  | slp =>
    have h1 := (fill_same M s).1
    have h2 := get_same M (s.fillContainers M)
    simp only [DSys.compile]
    rw [if_pos (by rw [h2.fns, h2.vars, h2.path, h1.fns, h1.vars, h1.path]; exact hc he)]
    exact ⟨_, rfl⟩

theorem differentiate_inStep (M : Marks) (s s' : DSys) (h : s.differentiate M = some s') :
    Same s s' ∧ s'.diffed = true ∧ InStep M s' := by
  unfold DSys.differentiate at h
  cases he : s.emethod with
  | functionTree =>
    rw [he] at h
    simp only [Option.some.injEq] at h
    subst h
    have h1 := fill_same M s
    refine ⟨h1.1, h1.2, ⟨fun _ hd => ?_, fun _ hd => ?_, fun hs => ?_⟩⟩
    · rw [h1.1.dmethod] at hd
      rw [h1.1.fns]
      unfold DSys.fillContainers
      rw [hd]
      rfl
    · rw [h1.1.dmethod] at hd
      rw [h1.1.fns, h1.1.vars, h1.1.path]
      unfold DSys.fillContainers
      rw [hd]
      exact ⟨useDerivatives_dx M s, useDerivatives_dt M s⟩
    · rw [h1.1.emethod, he] at hs
      cases hs
  | slp =>
    rw [he] at h
    simp only [DSys.compile] at h
    have h1 := fill_same M s
    have h2 := get_same M (s.fillContainers M)
    obtain ⟨h3, h4, h5⟩ := fill_get M s
    split_ifs at h with hc
    simp only [Option.some.injEq] at h
    subst h
    refine ⟨⟨h2.fns.trans h1.1.fns, h2.vars.trans h1.1.vars, h2.path.trans h1.1.path, h2.emethod.trans h1.1.emethod,
      h2.dmethod.trans h1.1.dmethod⟩, h5, ⟨fun hf => ?_, fun hf => ?_, fun _ => ⟨rfl, rfl, ?_, ?_, ?_⟩⟩⟩
    · have : s.emethod = .functionTree := by rw [← h1.1.emethod, ← h2.emethod]; exact hf
      rw [he] at this
      cases this
    · have : s.emethod = .functionTree := by rw [← h1.1.emethod, ← h2.emethod]; exact hf
      rw [he] at this
      cases this
    · show ((s.fillContainers M).getDerivatives M).dx = _
      rw [h3]
      show _ = spaceDerivs id ((s.fillContainers M).getDerivatives M).vars ((s.fillContainers M).getDerivatives M).fns
      rw [h2.vars, h2.fns, h1.1.vars, h1.1.fns]
    · intro hd t ht
      have hp : s.path = some t := by rw [← h1.1.path, ← h2.path]; exact ht
      have hd' : ((s.fillContainers M).getDerivatives M).dmethod = .derivatives := hd
      have ht' : ((s.fillContainers M).getDerivatives M).path = some t := ht
      simp only [ht', DSys.compiledTime, hd']
      show ((s.fillContainers M).getDerivatives M).dt = _
      rw [h4 t hp]
      show _ = ((s.fillContainers M).getDerivatives M).fns.map _
      rw [h2.fns, h1.1.fns]
    · intro hd t ht
      have hp : s.path = some t := by rw [← h1.1.path, ← h2.path]; exact ht
      have hd' : ((s.fillContainers M).getDerivatives M).dmethod = .jacobianNode := hd
      have ht' : ((s.fillContainers M).getDerivatives M).path = some t := ht
      simp only [ht', DSys.compiledTime, hd']
      rw [h4 t hp]
      show _ = ((s.fillContainers M).getDerivatives M).fns.map _
      rw [h2.fns, h1.1.fns, List.map_map]
      rfl

theorem ensure_inStep {M : Marks} {s s' : DSys} (hg : Good' M s) (h : s.ensure M = some s') :
    Same s s' ∧ s'.diffed = true ∧ InStep M s' := by
  unfold DSys.ensure at h
  by_cases hd : s.diffed = true
  · rw [if_pos hd, Option.some.injEq] at h
    subst h
    exact ⟨Same.refl s, hd, hg hd⟩
  · rw [if_neg hd] at h
    exact differentiate_inStep M s s' h

theorem ensure_ok {M : Marks} {s : DSys} (hc : s.emethod = .slp → ∀ f ∈ s.fns, Closed s.vars s.path f) :
    ∃ s', s.ensure M = some s' := by
  unfold DSys.ensure
  by_cases hd : s.diffed = true
  · exact ⟨s, if_pos hd⟩
  · rw [if_neg hd]
    exact differentiate_ok M s hc

theorem range_get_map {β : Type} (l : List Node) (g : Node → β) (k : Node → Node) :
    (List.range l.length).mapM (fun ii => ((l.map k)[ii]?).map g) = some (l.map fun f => g (k f)) := by
  rw [mapM_some (g := fun ii => if h : ii < l.length then g (k l[ii]) else g (.int 0)) _ ?_]
  · congr 1
    apply List.ext_getElem
    · simp
    · intro i h1 h2
      simp at h1
      simp [h1]
  · intro ii hi
    rw [List.mem_range] at hi
    simp [hi]

/-- The rows written by `Jacobian` after a good history. -/
theorem jacRows_inStep {M : Marks} {s : DSys} (hs : InStep M s) (hu : ∀ f ∈ s.fns, Unmarked M f) (env : Env) :
    s.jacRows M env = some (s.fns.map fun f => s.vars.map fun v => eval env (diff v f)) := by
  unfold DSys.jacRows
  cases he : s.emethod with
  | functionTree =>
    cases hd : s.dmethod with
    | jacobianNode =>
      dsimp only
      unfold jacobianNodeRows
      rw [hs.nodes he hd, range_get_map]
      congr 1
      exact List.map_congr_left fun f hf => List.map_congr_left fun v _ => evalJ_total M f (hu f hf) env v
    | derivatives =>
      dsimp only
      rw [(hs.trees he hd).1, jacRows_spaceDerivs]
      rfl
  | slp =>
    obtain ⟨h1, h2, h3, _⟩ := hs.prog he
    have : Sys.jacRows s.prog.dx env s.prog.fns.length s.prog.vars.length =
        some (s.fns.map fun f => s.vars.map fun v => eval env (diff v f)) := by
      rw [h1, h2, h3, jacRows_spaceDerivs]
      rfl
    cases s.dmethod <;> exact this

theorem jacobian_good {M : Marks} {s : DSys} (hg : Good' M s) (hu : ∀ f ∈ s.fns, Unmarked M f)
    (hc : s.emethod = .slp → ∀ f ∈ s.fns, Closed s.vars s.path f) (env : Env) (junk : List (List ℂ)) (hj : Fits s junk) :
    ∃ s', s.jacobian M env junk = some (s.fns.map (fun f => s.vars.map fun v => eval env (diff v f)), s') := by
  obtain ⟨s', h1⟩ := ensure_ok (M := M) hc
  obtain ⟨h2, _, h4⟩ := ensure_inStep hg h1
  have h5 := jacRows_inStep h4 (by rw [h2.fns]; exact hu) env
  rw [h2.fns, h2.vars] at h5
  refine ⟨s', ?_⟩
  unfold DSys.jacobian
  rw [if_neg (by
    rintro (h | h)
    · exact h hj.1
    · exact h hj.2)]
  have hb : blit2 (s.fns.map fun f => s.vars.map fun v => eval env (diff v f)) junk =
      some (s.fns.map fun f => s.vars.map fun v => eval env (diff v f)) := by
    have := blit2_all (s.fns.map fun f => s.vars.map fun v => eval env (diff v f)) junk [] (by
      rw [List.forall₂_iff_get]
      refine ⟨by simp [hj.1], fun k k1 k2 => ?_⟩
      have := hj.2 _ (List.getElem_mem k2)
      simp [this])
    simpa using this
  simp [h1, h5, hb]

theorem time_good {M : Marks} {s : DSys} (hg : Good' M s) (hu : ∀ f ∈ s.fns, Unmarked M f)
    (hc : s.emethod = .slp → ∀ f ∈ s.fns, Closed s.vars s.path f) (hm : s.emethod = .slp → s.dmethod = .derivatives) (env : Env)
    (t : Var) (ht : s.path = some t) (junk : List ℂ) (hj : junk.length = s.fns.length) :
    ∃ s', s.timeDerivative M env junk = some (s.fns.map fun f => eval env (diff t f), s') := by
  obtain ⟨s', h1⟩ := ensure_ok (M := M) hc
  obtain ⟨h2, _, h4⟩ := ensure_inStep hg h1
  have ht' : s'.path = some t := h2.path.trans ht
  refine ⟨s', ?_⟩
  have h5 : s'.timeRow M env t = some (s.fns.map fun f => eval env (diff t f)) := by
    unfold DSys.timeRow
    cases he : s'.emethod with
    | functionTree =>
      cases hd : s'.dmethod with
      | jacobianNode =>
        dsimp only
        rw [h4.nodes he hd, range_get_map, h2.fns]
        congr 1
        exact List.map_congr_left fun f hf => evalJ_total M f (hu f hf) env t
      | derivatives =>
        dsimp only
        unfold timeRows
        rw [(h4.trees he hd).2 t ht', range_get_map, h2.fns]
    | slp =>
      have hd : s'.dmethod = .derivatives := by
        rw [h2.dmethod]
        exact hm (by rw [← h2.emethod]; exact he)
      obtain ⟨_, a2, _, a4, _⟩ := h4.prog he
      have : timeRows s'.prog.dt env s'.prog.fns.length = some (s.fns.map fun f => eval env (diff t f)) := by
        unfold timeRows
        rw [a4 hd t ht', a2, range_get_map, h2.fns]
      rw [hd]
      exact this
  unfold DSys.timeDerivative
  rw [ht]
  dsimp only
  rw [if_neg (by omega)]
  have hb : blit (s.fns.map fun f => eval env (diff t f)) junk = some (s.fns.map fun f => eval env (diff t f)) := by
    unfold blit
    rw [if_pos (by simp [hj])]
    simp [hj]
  simp [h1, h5, hb]

theorem good_of_inStep {M : Marks} {s' : DSys} (h : InStep M s') : Good' M s' := fun _ => h

theorem jacobian_state {M : Marks} {s s' : DSys} {env : Env} {junk J : List (List ℂ)}
    (h : s.jacobian M env junk = some (J, s')) : s.ensure M = some s' := by
  unfold DSys.jacobian at h
  split_ifs at h
  simp only [Option.bind_eq_bind, Option.bind_eq_some_iff, Option.some.injEq, Prod.mk.injEq] at h
  obtain ⟨s1, h1, _, _, _, _, _, h2⟩ := h
  exact h2 ▸ h1

theorem time_state {M : Marks} {s s' : DSys} {env : Env} {junk d : List ℂ}
    (h : s.timeDerivative M env junk = some (d, s')) : s.ensure M = some s' := by
  unfold DSys.timeDerivative at h
  cases hp : s.path with
  | none => rw [hp] at h; cases h
  | some t =>
    rw [hp] at h
    dsimp only at h
    split_ifs at h
    simp only [Option.bind_eq_bind, Option.bind_eq_some_iff, Option.some.injEq, Prod.mk.injEq] at h
    obtain ⟨s1, h1, _, _, _, _, _, h2⟩ := h
    exact h2 ▸ h1

theorem step_good' {M : Marks} {s s' : DSys} {op : DOp} (hg : Good' M s) (hs : DSafe s op) (h : s.step M op = some s') :
    Good' M s' := by
  cases op with
  | setEval m =>
    simp only [DSys.step, Option.some.injEq] at h
    subst h
    intro hd
    rcases hs with hs | hs
    · rw [hs] at hd; cases hd
    · subst hs; exact hg hd
  | setDeriv m =>
    simp only [DSys.step, Option.some.injEq] at h
    subst h
    intro hd
    rcases hs with hs | hs
    · rw [hs] at hd; cases hd
    · subst hs; exact hg hd
  | edit fns vars path =>
    simp only [DSys.step, Option.some.injEq] at h
    subst h
    intro hd
    cases hd
  | jacobian env junk =>
    simp only [DSys.step, Option.map_eq_some_iff] at h
    obtain ⟨⟨J, s1⟩, h1, rfl⟩ := h
    exact good_of_inStep (ensure_inStep hg (jacobian_state h1)).2.2
  | time env junk =>
    simp only [DSys.step, Option.map_eq_some_iff] at h
    obtain ⟨⟨J, s1⟩, h1, rfl⟩ := h
    exact good_of_inStep (ensure_inStep hg (time_state h1)).2.2
  | get =>
    simp only [DSys.step, Option.some.injEq] at h
    subst h
    unfold DSys.getDerivatives
    split_ifs with hc
    · intro _
      have hx := useDerivatives_dx M s
      have ht := useDerivatives_dt M s
      refine ⟨fun he hd => ?_, fun _ _ => ⟨hx, ht⟩, fun he => ?_⟩
      · rcases hs with hs | hs
        · exact (hg hs).nodes he hd
        · have : s.dmethod = .jacobianNode := hd
          rw [hs.2] at this
          cases this
      · rcases hs with hs | hs
        · exact (hg hs).prog he
        · have : s.emethod = .slp := he
          rw [hs.1] at this
          cases this
    · exact hg
  | copy =>
    simp only [DSys.step, Option.some.injEq] at h
    subst h
    intro hd
    rcases hs with hs | hs
    · rw [hs] at hd; cases hd
    · have hi := hg hd
      refine ⟨(fun _ h => by cases h), fun he _ => hi.trees he hs.2, fun he => ?_⟩
      have : s.emethod = .slp := he
      rw [hs.1] at this
      cases this

theorem run_good' {M : Marks} : ∀ (ops : List DOp) (s s' : DSys), Good' M s → DSafeRun M ops s → DSys.run M ops s = some s' →
    Good' M s'
  | [], s, s', hg, _, h => by
    simp only [DSys.run, Option.some.injEq] at h
    exact h ▸ hg
  | op :: ops, s, s', hg, hs, h => by
    simp only [DSys.run, Option.bind_eq_some_iff] at h
    obtain ⟨s1, h1, h2⟩ := h
    exact run_good' ops s1 s' (step_good' hg hs.1 h1) (hs.2 s1 h1) h2

theorem good_new (M : Marks) : Good' M DSys.new := fun h => by cases h

theorem isJac_of_diff {fns : List Node} {vars : List Var} {env : Env} (hs : ∀ f ∈ fns, Smooth env f)
    (he : ∀ f ∈ fns, ∀ v, ExpFree v f) : IsJac fns vars env (fns.map fun f => vars.map fun v => eval env (diff v f)) := by
  unfold IsJac
  rw [List.forall₂_map_right_iff, List.forall₂_same]
  intro f hf
  rw [List.forall₂_map_right_iff, List.forall₂_same]
  exact fun v _ => diff_correct v env f (hs f hf) (he f hf v)

theorem isTime_of_diff {fns : List Node} {t : Var} {env : Env} (hs : ∀ f ∈ fns, Smooth env f)
    (he : ∀ f ∈ fns, ∀ v, ExpFree v f) : IsTimeDeriv fns t env (fns.map fun f => eval env (diff t f)) := by
  unfold IsTimeDeriv
  rw [List.forall₂_map_right_iff, List.forall₂_same]
  exact fun f hf => diff_correct t env f (hs f hf) (he f hf t)

/-- **C171 (partial).** After every history in which the methods are changed, derivatives requested by `GetSpaceDerivatives` and copies
made only as `DSafe` allows, `Jacobian` returns the matrix of partial derivatives with every choice of the two methods, and
`TimeDerivative` the derivatives by the path variable with every choice but one.  Missing: the other histories, and `TimeDerivative`
of a compiled system with `DerivMethod::JacobianNode`; there the statement is false, see below. -/
theorem C171_partial (M : Marks) (ops : List DOp) (s : DSys) (hsafe : DSafeRun M ops DSys.new)
    (hrun : DSys.run M ops DSys.new = some s) (env : Env) (hr : Regular M s env) :
    (∀ junk, Fits s junk → ∃ J s', s.jacobian M env junk = some (J, s') ∧ IsJac s.fns s.vars env J) ∧
    ((s.emethod = .slp → s.dmethod = .derivatives) → ∀ t, s.path = some t → ∀ junk : List ℂ, junk.length = s.fns.length →
      ∃ d s', s.timeDerivative M env junk = some (d, s') ∧ IsTimeDeriv s.fns t env d) := by
  have hg := run_good' ops _ _ (good_new M) hsafe hrun
  refine ⟨fun junk hj => ?_, fun hm t ht junk hj => ?_⟩
  · obtain ⟨s', h⟩ := jacobian_good hg hr.unmarked (fun _ => hr.closed) env junk hj
    exact ⟨_, s', h, isJac_of_diff hr.smooth hr.expFree⟩
  · obtain ⟨s', h⟩ := time_good hg hr.unmarked (fun _ => hr.closed) hm env t ht junk hj
    exact ⟨_, s', h, isTime_of_diff hr.smooth hr.expFree⟩

/-- **C171 (one function).** `Differentiate()` without a variable, evaluated with `EvalJ(v)`, is the partial derivative by `v`, for every
variable `v`. -/
theorem C171_differential (M : Marks) (f : Node) (hu : Unmarked M f) (env : Env) (v : Var) (hs : Smooth env f) (he : ExpFree v f) :
    IsPartialDeriv f v env (evalJ M env v (differentiateNode M none f)) := by
  rw [evalJ_total M f hu]
  exact diff_correct v env f hs he

/-- **C171 (agreement).** Two systems with the same functions and variables, brought about by two such histories, return the same
Jacobian at every point, also where the functions are not differentiable: the method makes no difference. -/
theorem C171_agree (M : Marks) (ops₁ ops₂ : List DOp) (s₁ s₂ : DSys) (h₁ : DSafeRun M ops₁ DSys.new)
    (h₂ : DSafeRun M ops₂ DSys.new) (r₁ : DSys.run M ops₁ DSys.new = some s₁) (r₂ : DSys.run M ops₂ DSys.new = some s₂)
    (hf : s₁.fns = s₂.fns) (hv : s₁.vars = s₂.vars) (hp : s₁.path = s₂.path) (hu : ∀ f ∈ s₁.fns, Unmarked M f)
    (hc : ∀ f ∈ s₁.fns, Closed s₁.vars s₁.path f) (env : Env) (junk₁ junk₂ : List (List ℂ)) (j₁ : Fits s₁ junk₁)
    (j₂ : Fits s₂ junk₂) :
    ∃ J, (s₁.jacobian M env junk₁).map Prod.fst = some J ∧ (s₂.jacobian M env junk₂).map Prod.fst = some J := by
  obtain ⟨t₁, a₁⟩ := jacobian_good (run_good' ops₁ _ _ (good_new M) h₁ r₁) hu (fun _ => hc) env junk₁ j₁
  obtain ⟨t₂, a₂⟩ := jacobian_good (run_good' ops₂ _ _ (good_new M) h₂ r₂) (hf ▸ hu) (fun _ => by rw [← hf, ← hv, ← hp]; exact hc)
    env junk₂ j₂
  refine ⟨_, by rw [a₁]; rfl, ?_⟩
  rw [a₂, hf, hv]
  rfl

/-- **C171 (the missing case).** A compiled system with `DerivMethod::JacobianNode` returns 0 as derivative by the path variable,
whatever its functions are. -/
theorem C171_time_zero (M : Marks) (s : DSys) (hd : s.diffed = false) (he : s.emethod = .slp) (hm : s.dmethod = .jacobianNode)
    (hc : ∀ f ∈ s.fns, Closed s.vars s.path f) (t : Var) (ht : s.path = some t) (env : Env) (junk : List ℂ)
    (hj : junk.length = s.fns.length) :
    ∃ s', s.timeDerivative M env junk = some (List.replicate s.fns.length 0, s') := by
  have hg : Good' M s := fun h => by rw [hd] at h; cases h
  obtain ⟨s', h1⟩ := ensure_ok (M := M) (s := s) fun _ => hc
  obtain ⟨h2, _, h4⟩ := ensure_inStep hg h1
  obtain ⟨_, a2, _, _, a5⟩ := h4.prog (h2.emethod.trans he)
  have h5 : s'.timeRow M env t = some (List.replicate s.fns.length 0) := by
    unfold DSys.timeRow
    rw [h2.emethod.trans he, h2.dmethod.trans hm]
    dsimp only
    unfold timeRows
    rw [a5 (h2.dmethod.trans hm) t (h2.path.trans ht), a2, range_get_map s'.fns (eval env) (fun _ => .int 0), h2.fns]
    simp [eval, List.map_const']
  refine ⟨s', ?_⟩
  unfold DSys.timeDerivative
  rw [ht]
  dsimp only
  rw [if_neg (by omega)]
  have hb : blit (List.replicate s.fns.length (0 : ℂ)) junk = some (List.replicate s.fns.length 0) := by
    unfold blit
    rw [if_pos (by simp [hj])]
    simp [hj]
  simp [h1, h5, hb]

/-! ### The remaining histories -/

/-- Differentials are numbered from 100. -/
def marks : Marks := ⟨fun w => w + 100, fun u => if 100 ≤ u then some (u - 100) else none, fun w => by simp⟩

/-- A system of one function of one variable. -/
def oneFn (f : Node) (p : Option Var) : DOp := .edit [f] [0] p

theorem regular_of {s : DSys} {env : Env} {f : Node} (hf : s.fns = [f]) (hc : Closed s.vars s.path f) (hu : Unmarked marks f)
    (hs : Smooth env f) (he : ∀ v, ExpFree v f) : Regular marks s env := by
  refine ⟨?_, ?_, ?_, ?_⟩ <;> rw [hf] <;> intro g hg <;> rw [List.mem_singleton] at hg <;> subst hg <;> assumption

/-- The function `x`, as a tree-evaluated system. -/
def treeSys (f : Node) (m : DMethod) : DSys :=
  { DSys.new with fns := [f], vars := [0], emethod := .functionTree, dmethod := m }

/-- Switch to function trees and add a function. -/
def buildTree (f : Node) (m : DMethod) : List DOp := [.setEval .functionTree, .setDeriv m, oneFn f none]

theorem run_buildTree (f : Node) (m : DMethod) : DSys.run marks (buildTree f m) DSys.new = some (treeSys f m) := rfl

theorem drun_append (M : Marks) : ∀ (a b : List DOp) (s : DSys),
    DSys.run M (a ++ b) s = (DSys.run M a s).bind (DSys.run M b)
  | [], b, s => rfl
  | op :: a, b, s => by
    simp only [List.cons_append, DSys.run, Option.bind_assoc]
    congr 1
    funext s'
    exact drun_append M a b s'

/-- The system after `Jacobian` was called once. -/
theorem jac_treeSys (f : Node) (m : DMethod) (hu : Unmarked marks f) (env : Env) :
    (treeSys f m).step marks (.jacobian env [[7]]) = some ((treeSys f m).fillContainers marks) := by
  obtain ⟨s', h⟩ := jacobian_good (M := marks) (s := treeSys f m) (fun h => by cases h)
    (by intro g hg; rw [show (treeSys f m).fns = [f] from rfl, List.mem_singleton] at hg; subst hg; exact hu)
    (fun h => by cases h) env [[7]] ⟨rfl, by intro r hr; rw [List.mem_singleton] at hr; subst hr; rfl⟩
  have h2 := jacobian_state h
  simp only [DSys.step, h, Option.map_some]
  exact h2.symm

/-- A system differentiated as one tree per function and variable, then told to use the Jacobian nodes. -/
def switched : DSys := { (treeSys (.var 0) .derivatives).fillContainers marks with dmethod := .jacobianNode }

theorem run_switched : DSys.run marks (buildTree (.var 0) .derivatives ++ [.jacobian (fun _ => 3) [[7]], .setDeriv .jacobianNode])
    DSys.new = some switched := by
  rw [drun_append, run_buildTree, Option.bind_some]
  simp only [DSys.run]
  rw [jac_treeSys _ _ (by intro w hw; simp [Node.vars] at hw; subst hw; rfl)]
  rfl

theorem unmarked_x : Unmarked marks (.var 0) := by
  intro w hw
  simp [Node.vars] at hw
  subst hw
  rfl

/-- **C171 refuted (change of the method).** `Jacobian` by derivatives, then `SetDerivMethod(JacobianNode)`, then `Jacobian` again: the
vector of Jacobian nodes is empty and is read out of range. -/
theorem C171_refuted : ¬ C171_full := by
  intro h
  obtain ⟨J, s', h1, _⟩ := (h marks _ switched run_switched (fun _ => 3)
    (regular_of (f := .var 0) rfl (by intro v hv; left; simpa [Node.vars, switched, treeSys, DSys.fillContainers,
      DSys.useDerivatives] using hv) unmarked_x (by simp [Smooth]) (by simp [ExpFree]))).1 [[7]]
    ⟨rfl, by intro r hr; rw [List.mem_singleton] at hr; subst hr; rfl⟩
  have : switched.jacobian marks (fun _ => 3) [[7]] = none := by
    simp [DSys.jacobian, switched, treeSys, DSys.fillContainers, DSys.useDerivatives, DSys.ensure, DSys.jacRows, jacobianNodeRows,
      DSys.new]
  rw [this] at h1
  cases h1

/-- A system with the derivatives of `x` whose function is now `x^2`. -/
def stale : DSys :=
  { ({ (treeSys (.var 0) .derivatives).fillContainers marks with
      dmethod := .jacobianNode, fns := [.ipow (.var 0) 2], diffed := false } : DSys).fillContainers marks with
    dmethod := .derivatives }

/-- **C171 refuted (derivatives of other functions).** Differentiate `x` by derivatives, switch to Jacobian nodes, replace the function
by `x^2`, differentiate, switch back: the Jacobian at 3 is 1, the derivative of `x`. -/
theorem C171_stale_refuted :
    DSys.run marks (buildTree (.var 0) .derivatives ++ [.jacobian (fun _ => 3) [[7]], .setDeriv .jacobianNode,
      oneFn (.ipow (.var 0) 2) none, .jacobian (fun _ => 3) [[7]], .setDeriv .derivatives]) DSys.new = some stale ∧
    stale.fns = [.ipow (.var 0) 2] ∧ Regular marks stale (fun _ => 3) ∧
    ∃ s', stale.jacobian marks (fun _ => 3) [[7]] = some ([[1]], s') := by
  have hx2 : Unmarked marks (.ipow (.var 0) 2) := by
    intro w hw
    simp [Node.vars] at hw
    subst hw
    rfl
  refine ⟨?_, rfl, ?_, stale, ?_⟩
  · rw [drun_append, run_buildTree, Option.bind_some]
    simp only [DSys.run]
    rw [jac_treeSys _ _ unmarked_x]
    simp only [Option.bind_some, DSys.step, oneFn]
    obtain ⟨s', h⟩ := jacobian_good (M := marks)
      (s := { (treeSys (.var 0) .derivatives).fillContainers marks with
        dmethod := .jacobianNode, fns := [.ipow (.var 0) 2], vars := [0], path := none, diffed := false })
      (fun h => by cases h)
      (by intro g hg; rw [List.mem_singleton] at hg; subst hg; exact hx2)
      (fun h => by cases h) (fun _ => 3) [[7]] ⟨rfl, by intro r hr; rw [List.mem_singleton] at hr; subst hr; rfl⟩
    have h2 := jacobian_state h
    rw [h]
    simp only [Option.map_some, Option.bind_some]
    have h3 : s' = ({ (treeSys (.var 0) .derivatives).fillContainers marks with
        dmethod := .jacobianNode, fns := [.ipow (.var 0) 2], vars := [0], path := none, diffed := false } :
        DSys).fillContainers marks := by
      have : ({ (treeSys (.var 0) .derivatives).fillContainers marks with
        dmethod := .jacobianNode, fns := [.ipow (.var 0) 2], vars := [0], path := none, diffed := false } :
        DSys).ensure marks = some (({ (treeSys (.var 0) .derivatives).fillContainers marks with
        dmethod := .jacobianNode, fns := [.ipow (.var 0) 2], vars := [0], path := none, diffed := false } :
        DSys).fillContainers marks) := rfl
      rw [this] at h2
      exact (Option.some.inj h2).symm
    rw [h3]
    rfl
  · exact regular_of (f := .ipow (.var 0) 2) rfl (by intro v hv; left; simpa [Node.vars, stale, treeSys, DSys.fillContainers,
      DSys.useDerivatives, DSys.useJacobianNode] using hv) hx2 (by simp [Smooth]) (by simp [ExpFree])
  · simp [DSys.jacobian, stale, treeSys, DSys.fillContainers, DSys.useDerivatives, DSys.useJacobianNode, DSys.ensure, DSys.jacRows,
      Sys.jacRows, DSys.new, differentiateNode, diffWith, leaf, eval, blit2, blit]

/-- A default system with function `x` whose derivatives were asked for. -/
def asked : DSys := ({ DSys.new with fns := [.var 0], vars := [0] } : DSys).getDerivatives marks

/-- **C171 refuted (asking for derivatives).** A new system with the default methods, `GetSpaceDerivatives()` (or a program
compiled from it by the user), then `Jacobian`: the
system counts as differentiated but has no compiled program, and what was in the memory of the matrix is returned. -/
theorem C171_get_refuted (junk : ℂ) :
    DSys.run marks [oneFn (.var 0) none, .get] DSys.new = some asked ∧ asked.fns = [.var 0] ∧
    Regular marks asked (fun _ => 3) ∧ asked.jacobian marks (fun _ => 3) [[junk]] = some ([[junk]], asked) := by
  refine ⟨rfl, rfl, ?_, ?_⟩
  · exact regular_of (f := .var 0) rfl (by intro v hv; left; simpa [Node.vars, asked, DSys.getDerivatives,
      DSys.useDerivatives, DSys.new] using hv) unmarked_x (by simp [Smooth]) (by simp [ExpFree])
  · simp [DSys.jacobian, asked, DSys.getDerivatives, DSys.useDerivatives, DSys.ensure, DSys.jacRows, Sys.jacRows, DSys.new,
      Prog.empty, blit2]

/-- A copy of a system differentiated by Jacobian nodes. -/
def copied : DSys := { (treeSys (.var 0) .jacobianNode).fillContainers marks with dmethod := .derivatives }

/-- **C171 refuted (copies).** A copy of a system which was differentiated by Jacobian nodes reads its empty vector of derivatives out
of range. -/
theorem C171_copy_refuted :
    DSys.run marks (buildTree (.var 0) .jacobianNode ++ [.jacobian (fun _ => 3) [[7]], .copy]) DSys.new = some copied ∧
    copied.fns = [.var 0] ∧ Regular marks copied (fun _ => 3) ∧ copied.jacobian marks (fun _ => 3) [[7]] = none := by
  refine ⟨?_, rfl, ?_, ?_⟩
  · rw [drun_append, run_buildTree, Option.bind_some]
    simp only [DSys.run]
    rw [jac_treeSys _ _ unmarked_x]
    rfl
  · exact regular_of (f := .var 0) rfl (by intro v hv; left; simpa [Node.vars, copied, treeSys, DSys.fillContainers,
      DSys.useJacobianNode] using hv) unmarked_x (by simp [Smooth]) (by simp [ExpFree])
  · simp [DSys.jacobian, copied, treeSys, DSys.fillContainers, DSys.useJacobianNode, DSys.ensure, DSys.jacRows, Sys.jacRows, DSys.new]

/-- **C171 refuted (time derivative of a compiled system).** The function `t` with path variable `t`, compiled, with Jacobian nodes: its
derivative by `t` is returned as 0. -/
theorem C171_time_refuted :
    ∃ ops s, DSafeRun marks ops DSys.new ∧ DSys.run marks ops DSys.new = some s ∧ s.fns = [.var 1] ∧ s.path = some 1 ∧
      Regular marks s (fun _ => 3) ∧ (∃ s', s.timeDerivative marks (fun _ => 3) [7] = some ([0], s')) ∧
      ¬ IsTimeDeriv s.fns 1 (fun _ => 3) [0] := by
  refine ⟨[.setDeriv .jacobianNode, oneFn (.var 1) (some 1)],
    { DSys.new with fns := [.var 1], vars := [0], path := some 1, dmethod := .jacobianNode },
    ⟨Or.inl rfl, fun s' h => ⟨trivial, fun _ _ => trivial⟩⟩, rfl, rfl, rfl, ?_, ?_, ?_⟩
  · exact regular_of (f := .var 1) rfl (by intro v hv; right; simp [Node.vars] at hv; simp [hv])
      (by intro w hw; simp [Node.vars] at hw; subst hw; rfl) (by simp [Smooth]) (by simp [ExpFree])
  · exact C171_time_zero marks _ rfl rfl rfl
      (by intro f hf; rw [List.mem_singleton] at hf; subst hf; intro v hv; right; simp [Node.vars] at hv; simp [hv]) 1 rfl _ [7] rfl
  · intro h
    cases h with
    | cons h _ =>
      have h2 := diff_correct 1 (fun _ => 3) (.var 1) (by simp [Smooth]) (by simp [ExpFree])
      have := HasDerivAt.unique h h2
      simp [diff, eval] at this

/-- `C171_partial` covers, for example, a system of `x^2` and `x*t` set to Jacobian nodes and function trees before its functions are
added; its Jacobian at `x = 3`, `t = 5` and its time derivative are computed. -/
example : ∃ s, DSys.run marks [.setEval .functionTree, .setDeriv .jacobianNode,
      .edit [.ipow (.var 0) 2, .mult (.cons true (.var 0) (.cons true (.var 1) .nil))] [0] (some 1)] DSys.new = some s ∧
    DSafeRun marks [.setEval .functionTree, .setDeriv .jacobianNode,
      .edit [.ipow (.var 0) 2, .mult (.cons true (.var 0) (.cons true (.var 1) .nil))] [0] (some 1)] DSys.new ∧
    ∀ env, Regular marks s env := by
  refine ⟨_, rfl, ⟨Or.inl rfl, fun s h => ?_⟩, fun env => ?_⟩
  · simp only [DSys.step, Option.some.injEq] at h
    subst h
    exact ⟨Or.inl rfl, fun _ _ => ⟨trivial, fun _ _ => trivial⟩⟩
  · refine ⟨?_, ?_, ?_, ?_⟩ <;> intro f hf <;>
      simp only [List.mem_cons, List.not_mem_nil, or_false] at hf <;> rcases hf with rfl | rfl
    · intro v hv; left; simpa [Node.vars] using hv
    · intro v hv
      simp [Node.vars, Ops.vars] at hv
      rcases hv with rfl | rfl
      · left; simp
      · right; rfl
    · intro w hw; simp [Node.vars] at hw; subst hw; rfl
    · intro w hw
      simp [Node.vars, Ops.vars] at hw
      rcases hw with rfl | rfl <;> rfl
    · simp [Smooth]
    · simp [Smooth, SmoothMult]
    · simp [ExpFree]
    · simp [ExpFree, ExpFreeOps]

end B2.Sys
