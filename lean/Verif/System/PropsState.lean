import Verif.System.StateProof
import Verif.Patch.PropsPatch
import Verif.Tree.DiffProof

/-!
# Properties C20, C21, C22, C70: values and derivatives of systems after any history

`w` is a state of the program (all systems, functions and variable values); `run simp ops World.init`
is the state after any sequence of operations. `Binds vars x env`: the assignment `env` gives the
variables `vars` the values `x`.
-/

namespace B2.Sys

open Classical

/-- A history in which every operation is `Safe` when it is performed. -/
def SafeRun (simp : Node → Node) : List SysOp → World → Prop
  | [], _ => True
  | op :: ops, w => Safe w op ∧ ∀ w', step simp w op = some w' → SafeRun simp ops w'

theorem good_init (simp : Node → Node) : Good simp World.init where
  sync := fun _ => Sync.undiffed rfl fun _ => rfl
  bound := fun i f hf => by simp [World.init, Obj.new] at hf

theorem run_good {simp : Node → Node} : ∀ (ops : List SysOp) (w w' : World), Good simp w →
    SafeRun simp ops w → run simp ops w = some w' → Good simp w' := by
  intro ops
  induction ops with
  | nil => intro w w' hg _ h; simp only [run, Option.some.injEq] at h; exact h ▸ hg
  | cons op ops ih =>
    intro w w' hg hs h
    simp only [run, Option.bind_eq_some_iff] at h
    obtain ⟨w1, h1, h⟩ := h
    exact ih w1 w' (step_good hg hs.1 h1) (hs.2 w1 h1) h

/-- What a system needs to be evaluated at all: its variables can be listed, its functions use only
its variables (and path variable), and for straight-line evaluation no function is listed twice. -/
structure Evaluable (w : World) (i : ℕ) (vars : List Var) : Prop where
  listed : (w.objs i).vars = some vars
  closed : ∀ f ∈ w.roots (w.objs i), Closed vars (w.objs i).path f
  nodup : (w.objs i).fns.Nodup

/-- The point splits into blocks for the patch when the system is patched. -/
def PatchFits (w : World) (i : ℕ) (x : List ℂ) : Prop :=
  (w.objs i).patched = true → ∃ xs, x = xs.flatten ∧ Patch.Fits (w.objs i).patch xs

/-- The vector of values a user expects from system `i` at the point `x`, the variables having the
values `env`: function values, then patch values when patched. -/
def IsValue (w : World) (i : ℕ) (env : Env) (x out : List ℂ) : Prop :=
  ∃ pv, out = (w.roots (w.objs i)).map (eval env) ++ pv ∧
    ((w.objs i).patched = true → ∃ xs, x = xs.flatten ∧ Patch.Fits (w.objs i).patch xs ∧
      pv = List.zipWith Patch.value (w.objs i).patch xs) ∧
    ((w.objs i).patched = false → pv = [])

/-- Inputs of the current method hold the values `env`. -/
def Ready (w : World) (i : ℕ) (vars : List Var) (env : Env) : Prop :=
  ∀ n, Closed vars (w.objs i).path n →
    ((w.objs i).method = .functionTree → eval w.vals n = eval env n) ∧
    ((w.objs i).method = .slp → eval (w.objs i).prog.mem n = eval env n)

theorem ready_space {simp : Node → Node} {w : World} {i : ℕ} {vars : List Var} {x : List ℂ} {env : Env}
    (hs : Sync simp w (w.objs i)) (he : Evaluable w i vars) (hb : Binds vars x env)
    (hp : (w.objs i).path = none) :
    ∃ w', setVariables simp w i x = some w' ∧ Touched simp w w' i ∧ (w'.objs i).cur = x ∧
      Ready w' i vars env := by
  have hl : x.length = vars.length := by rw [← hb]; simp
  obtain ⟨w', h⟩ := setVariables_ok hs he.listed hl fun _ => ⟨he.nodup, he.closed⟩
  obtain ⟨vars', hv', _, ht, hc, h1, h2⟩ := setVariables_some hs h
  have hvv : vars' = vars := by rw [he.listed] at hv'; exact (Option.some.inj hv').symm
  subst hvv
  refine ⟨w', h, ht, hc, fun n hn => ⟨fun hm => ?_, fun hm => ?_⟩⟩
  · rw [h1 (ht.method ▸ hm)]
    rw [ht.path, hp] at hn
    exact eval_bind hb (by simp) hn
  · obtain ⟨m, hm'⟩ := h2 (ht.method ▸ hm)
    rw [hm']
    rw [ht.path, hp] at hn
    exact eval_bind hb (by simp) hn

theorem ready_time {simp : Node → Node} {w : World} {i : ℕ} {vars : List Var} {x : List ℂ} {env : Env}
    {t : ℂ} {p : Var}
    (hs : Sync simp w (w.objs i)) (he : Evaluable w i vars) (hb : Binds vars x env)
    (hp : (w.objs i).path = some p) (ht0 : env p = t) :
    ∃ w' w'', setVariables simp w i x = some w' ∧ setPath simp w' i t = some w'' ∧
      Touched simp w w'' i ∧ (w''.objs i).cur = x ∧ Ready w'' i vars env := by
  have hl : x.length = vars.length := by rw [← hb]; simp
  obtain ⟨w', h⟩ := setVariables_ok hs he.listed hl fun _ => ⟨he.nodup, he.closed⟩
  obtain ⟨vars', hv', _, ht, hc, h1, h2⟩ := setVariables_some hs h
  have hvv : vars' = vars := by rw [he.listed] at hv'; exact (Option.some.inj hv').symm
  subst hvv
  obtain ⟨w'', h'⟩ := setPath_ok (t := t) ht.sync ht.diffed (ht.path.trans hp)
  obtain ⟨p', hp', ht', hc', h3, h4⟩ := setPath_some ht.sync ht.diffed h'
  have hpp : p' = p := by rw [ht.path, hp] at hp'; exact (Option.some.inj hp').symm
  subst hpp
  have key : ∀ (e : Env) (n : Node), Closed vars' (w''.objs i).path n →
      eval (Function.update (bind vars' x e) p' t) n = eval env n := by
    intro e n hn
    refine eval_congr n fun v hv => ?_
    by_cases hvp : v = p'
    · subst hvp; simp [ht0]
    · rw [Function.update_of_ne hvp]
      refine bind_mem hb (Or.inl ?_)
      rcases hn v hv with h | h
      · exact h
      · rw [ht'.path, ht.path, hp] at h
        exact absurd (Option.some.inj h).symm hvp
  refine ⟨w', w'', h, h', ht.trans ht', hc'.trans hc, fun n hn => ⟨fun hm => ?_, fun hm => ?_⟩⟩
  · rw [h3, h1 (ht.method ▸ ht'.method ▸ hm)]
    exact key _ n hn
  · obtain ⟨m, hm'⟩ := h2 (ht.method ▸ ht'.method ▸ hm)
    have := h4 (ht'.method ▸ hm)
    rw [this, hm']
    exact key _ n hn

theorem evalStored_ready {simp : Node → Node} {w : World} {i : ℕ} {vars : List Var} {x junk : List ℂ}
    {env : Env} (hs : Sync simp w (w.objs i)) (hd : (w.objs i).diffed = true)
    (he : Evaluable w i vars) (hr : Ready w i vars env) (hx : (w.objs i).cur = x)
    (hpf : PatchFits w i x) (hup : (w.objs i).patched = false → (w.objs i).patch = [])
    (hj : junk.length = (w.objs i).total) :
    ∃ out, evalStored w i junk = some out ∧ IsValue w i env x out := by
  have hlen : ((w.roots (w.objs i)).map (eval env)).length = (w.objs i).fns.length := by
    simp [World.roots]
  have hev : ∀ f ∈ w.roots (w.objs i), _ := fun f hf => hr f (he.closed f hf)
  have h1 : ∃ o1, evalTrees w (w.objs i) junk = some o1 ∧
      blit ((w.objs i).prog.fns.map (eval (w.objs i).prog.mem)) o1 =
        some ((w.roots (w.objs i)).map (eval env) ++ junk.drop (w.objs i).fns.length) := by
    unfold evalTrees
    cases hm : (w.objs i).method with
    | functionTree =>
      have hn := hs.noProg hm
      have hl : (w.roots (w.objs i)).map (eval w.vals) = (w.roots (w.objs i)).map (eval env) :=
        List.map_congr_left fun f hf => (hev f hf).1 hm
      refine ⟨_, blit_all ?_, ?_⟩
      · rw [hl, hlen, hj]; simp [Obj.total]
      · rw [hn, hl, hlen]
        simp [blit]
    | slp =>
      obtain ⟨vars', _, _, _, h4⟩ := hs.derivs hd
      obtain ⟨_, _, h7, _⟩ := h4 hm
      refine ⟨junk, rfl, ?_⟩
      have hl : (w.roots (w.objs i)).map (eval (w.objs i).prog.mem) =
          (w.roots (w.objs i)).map (eval env) :=
        List.map_congr_left fun f hf => (hev f hf).2 hm
      rw [h7, hl, blit_all (by rw [hlen, hj]; simp [Obj.total]), hlen]
  obtain ⟨o1, ho1, ho2⟩ := h1
  have hdl : (junk.drop (w.objs i).fns.length).length = (w.objs i).patch.length := by
    simp [hj, Obj.total]
  unfold evalStored
  simp only [hj, ne_eq, not_true_eq_false, if_false, Option.bind_eq_bind, ho1, Option.bind_some, ho2,
    evalPatch]
  cases hpt : (w.objs i).patched with
  | false =>
    refine ⟨_, if_neg (by simp), [], ?_, by simp [hpt], fun _ => rfl⟩
    rw [hup hpt] at hdl
    simp only [List.length_nil, List.length_eq_zero_iff] at hdl
    rw [hdl]
  | true =>
    obtain ⟨xs, rfl, hf⟩ := hpf hpt
    rw [hx, if_pos rfl, Patch.C29_values _ _ _ hf (by rw [List.length_append, hdl]; omega)]
    refine ⟨_, rfl, List.zipWith Patch.value (w.objs i).patch xs, ?_,
      fun _ => ⟨xs, rfl, hf, rfl⟩, by simp [hpt]⟩
    congr 1
    rw [List.length_append, hdl, Nat.add_sub_cancel, List.take_left]

theorem Touched.evaluable {simp : Node → Node} {w w' : World} {i : ℕ} (t : Touched simp w w' i)
    {vars : List Var} (he : Evaluable w i vars) : Evaluable w' i vars :=
  ⟨t.vars.trans he.listed, by rw [t.roots, t.path]; exact he.closed, by rw [t.fns]; exact he.nodup⟩

theorem Touched.isValue {simp : Node → Node} {w w' : World} {i : ℕ} (t : Touched simp w w' i)
    {env : Env} {x out : List ℂ} (h : IsValue w' i env x out) : IsValue w i env x out := by
  unfold IsValue at h ⊢
  rwa [t.roots, t.patch, t.patched] at h

theorem eval_good {simp : Node → Node} {w : World} (hg : Good simp w) {i : ℕ} {vars : List Var}
    {x : List ℂ} {env : Env} {junk : List ℂ}
    (he : Evaluable w i vars) (hb : Binds vars x env) (hpf : PatchFits w i x)
    (hup : (w.objs i).patched = false → (w.objs i).patch = [])
    (hj : junk.length = (w.objs i).total) :
    ((w.objs i).path = none →
      ∃ out w', evalAt simp w i junk x = some (out, w') ∧ IsValue w i env x out) ∧
    ∀ p, (w.objs i).path = some p →
      ∃ out w', evalAtTime simp w i junk x (env p) = some (out, w') ∧ IsValue w i env x out := by
  have hl : x.length = vars.length := by rw [← hb]; simp
  constructor
  · intro hp
    obtain ⟨w', h1, ht, hc, hr⟩ := ready_space (hg.sync i) he hb hp
    obtain ⟨out, ho, hv⟩ := evalStored_ready (junk := junk) ht.sync ht.diffed (ht.evaluable he) hr hc
      (by unfold PatchFits; rw [ht.patched, ht.patch]; exact hpf)
      (by rw [ht.patched, ht.patch]; exact hup) (by rw [hj]; simp [Obj.total, ht.fns, ht.patch])
    refine ⟨out, w', ?_, ht.isValue hv⟩
    simp [evalAt, he.listed, hl, hp, h1, ho]
  · intro p hp
    obtain ⟨w', w'', h1, h2, ht, hc, hr⟩ := ready_time (t := env p) (hg.sync i) he hb hp rfl
    obtain ⟨out, ho, hv⟩ := evalStored_ready (junk := junk) ht.sync ht.diffed (ht.evaluable he) hr hc
      (by unfold PatchFits; rw [ht.patched, ht.patch]; exact hpf)
      (by rw [ht.patched, ht.patch]; exact hup) (by rw [hj]; simp [Obj.total, ht.fns, ht.patch])
    refine ⟨out, w'', ?_, ht.isValue hv⟩
    simp [evalAtTime, he.listed, hl, hp, h1, h2, ho]

/-- **C20, full statement.** After any history, `Eval(x)` (and `Eval(x,t)` for systems with a path
variable) returns the values of the system's functions with the `k`-th variable bound to `x(k)`,
followed by the patch values when the system is patched. `junk` is the memory the result vector is
allocated in. -/
def C20_full : Prop :=
  ∀ (simp : Node → Node) (ops : List SysOp) (w : World), run simp ops World.init = some w →
    ∀ i vars x env junk, Evaluable w i vars → Binds vars x env → PatchFits w i x →
      junk.length = (w.objs i).total →
      ((w.objs i).path = none →
        ∃ out w', evalAt simp w i junk x = some (out, w') ∧ IsValue w i env x out) ∧
      ∀ p, (w.objs i).path = some p →
        ∃ out w', evalAtTime simp w i junk x (env p) = some (out, w') ∧ IsValue w i env x out

/-- **C20 (partial).** Holds after every history of safe operations (see `Safe`), for systems which
are patched or never were. Missing: histories with an unsafe operation, and systems whose patch was
dropped by adding a variable group; there it is false, see the refutations below. -/
theorem C20_partial (simp : Node → Node) (ops : List SysOp) (w : World)
    (hsafe : SafeRun simp ops World.init) (hrun : run simp ops World.init = some w)
    (i : ℕ) (vars : List Var) (x : List ℂ) (env : Env) (junk : List ℂ)
    (he : Evaluable w i vars) (hb : Binds vars x env) (hpf : PatchFits w i x)
    (hup : (w.objs i).patched = false → (w.objs i).patch = [])
    (hj : junk.length = (w.objs i).total) :
    ((w.objs i).path = none →
      ∃ out w', evalAt simp w i junk x = some (out, w') ∧ IsValue w i env x out) ∧
    ∀ p, (w.objs i).path = some p →
      ∃ out w', evalAtTime simp w i junk x (env p) = some (out, w') ∧ IsValue w i env x out :=
  eval_good (run_good ops _ _ (good_init simp) hsafe hrun) he hb hpf hup hj

/-- **C20 (rejection).** A point of the wrong length is rejected, in every state. -/
theorem C20_rejects (simp : Node → Node) (w : World) (i : ℕ) (vars : List Var) (x junk : List ℂ)
    (t : ℂ) (hv : (w.objs i).vars = some vars) (hl : x.length ≠ vars.length) :
    evalAt simp w i junk x = none ∧ evalAtTime simp w i junk x t = none := by
  simp [evalAt, evalAtTime, hv, hl]

/-! ### Derivatives -/

/-- The matrix a user expects as Jacobian of system `i` at the values `env` of the variables `vars`:
entry `(i,j)` of the upper part is the partial derivative of function `i` with respect to variable
`j`; when patched, one row per patch follows, with its coefficients in the columns of its group and
zeros elsewhere. -/
def IsJacobian (w : World) (i : ℕ) (env : Env) (vars : List Var) (J : List (List ℂ)) : Prop :=
  ∃ rows pr, J = rows ++ pr ∧
    List.Forall₂ (fun f row => List.Forall₂ (fun v d => IsPartialDeriv f v env d) vars row)
      (w.roots (w.objs i)) rows ∧
    ((w.objs i).patched = true → pr = Patch.blockRows (w.objs i).patch 0 vars.length) ∧
    ((w.objs i).patched = false → pr = [])

/-- The points where all functions of the system are differentiable in the listed variables by the
rules of C01. -/
def Differentiable (w : World) (i : ℕ) (env : Env) (vars : List Var) : Prop :=
  ∀ f ∈ w.roots (w.objs i), Smooth env f ∧ ∀ v ∈ vars, ExpFree v f

/-- A matrix of the right shape. -/
def Shaped (w : World) (i : ℕ) (vars : List Var) (m : List (List ℂ)) : Prop :=
  m.length = (w.objs i).total ∧ ∀ r ∈ m, r.length = vars.length

theorem jacStored_ready {simp : Node → Node} (hsimp : ∀ e n, eval e (simp n) = eval e n)
    {w : World} {i : ℕ} {vars : List Var} {junk : List (List ℂ)}
    {env : Env} (hs : Sync simp w (w.objs i)) (hd : (w.objs i).diffed = true)
    (he : Evaluable w i vars) (hr : Ready w i vars env)
    (hpv : (w.objs i).patched = true → Patch.numVariables (w.objs i).patch = vars.length)
    (hup : (w.objs i).patched = false → (w.objs i).patch = [])
    (hj : Shaped w i vars junk) :
    ∃ w', jacStored simp w i junk = some
      ((w.roots (w.objs i)).map (fun f => vars.map fun v => eval env (diff v f)) ++
        (if (w.objs i).patched then
          Patch.overwrite (w.objs i).patch 0 (junk.drop (w.objs i).fns.length) else []), w') := by
  have hnf : (w.roots (w.objs i)).length = (w.objs i).fns.length := by simp [World.roots]
  have hrd : ∀ f ∈ w.roots (w.objs i), ∀ v, _ := fun f hf v => hr _ (closed_diff v (he.closed f hf))
  have hvals : jacValues w (w.objs i) vars.length =
      some ((w.roots (w.objs i)).map (fun f => vars.map fun v => eval env (diff v f))) := by
    obtain ⟨vars', hv', h2, _, h4⟩ := hs.derivs hd
    have hvv : vars' = vars := by rw [he.listed] at hv'; exact (Option.some.inj hv').symm
    subst hvv
    unfold jacValues
    cases hm : (w.objs i).method with
    | functionTree =>
      rw [h2]
      dsimp only
      rw [← hnf, jacRows_spaceDerivs]
      congr 1
      exact List.map_congr_left fun f hf => List.map_congr_left fun v _ => by
        rw [hsimp]; exact (hrd f hf v).1 hm
    | slp =>
      obtain ⟨h5, _, h7, h8, _⟩ := h4 hm
      dsimp only
      rw [h5, h7, h8, h2, jacRows_spaceDerivs]
      congr 1
      exact List.map_congr_left fun f hf => List.map_congr_left fun v _ => by
        rw [hsimp]; exact (hrd f hf v).2 hm
  have hbl : blit2 ((w.roots (w.objs i)).map (fun f => vars.map fun v => eval env (diff v f))) junk =
      some ((w.roots (w.objs i)).map (fun f => vars.map fun v => eval env (diff v f)) ++
        junk.drop (w.objs i).fns.length) := by
    have := blit2_all ((w.roots (w.objs i)).map (fun f => vars.map fun v => eval env (diff v f)))
      (junk.take (w.objs i).fns.length) (junk.drop (w.objs i).fns.length) (by
        rw [List.forall₂_iff_get]
        refine ⟨?_, ?_⟩
        · simp [hnf, hj.1, Obj.total]
        · intro k h1 h2
          simp only [List.get_eq_getElem, List.getElem_map, List.length_map, List.getElem_take]
          exact (hj.2 _ (List.getElem_mem _)).symm)
    rwa [List.take_append_drop] at this
  refine ⟨w.set i (w.objs i), ?_⟩
  unfold jacStored
  simp only [he.listed, Option.bind_eq_bind, Option.bind_some]
  rw [if_neg (by push Not; exact ⟨hj.1, hj.2⟩)]
  simp only [ensureDiff, hd, if_true, Option.bind_some, hvals, hbl, jacPatch]
  have hdl : (junk.drop (w.objs i).fns.length).length = (w.objs i).patch.length := by
    simp [hj.1, Obj.total]
  cases hpt : (w.objs i).patched with
  | false =>
    rw [hup hpt] at hdl
    simp only [List.length_nil, List.length_eq_zero_iff] at hdl
    simp [hdl]
  | true =>
    rw [if_pos rfl, Patch.C29_jacobian_overwrite _ _ _ hdl (by
      intro r hr
      rw [hpv hpt]
      rcases List.mem_append.1 hr with h | h
      · obtain ⟨f, _, rfl⟩ := List.mem_map.1 h; simp
      · exact hj.2 r (List.mem_of_mem_drop h))]
    simp

/-- What the Jacobian is apart from the entries of patch rows outside their blocks: these keep
whatever was in the memory of the result matrix. -/
def IsJacobianOver (w : World) (i : ℕ) (env : Env) (vars : List Var) (junk J : List (List ℂ)) : Prop :=
  ∃ rows pr, J = rows ++ pr ∧
    List.Forall₂ (fun f row => List.Forall₂ (fun v d => IsPartialDeriv f v env d) vars row)
      (w.roots (w.objs i)) rows ∧
    ((w.objs i).patched = true →
      pr = Patch.overwrite (w.objs i).patch 0 (junk.drop (w.objs i).fns.length)) ∧
    ((w.objs i).patched = false → pr = [])

theorem isJacobianOver_rows {w : World} {i : ℕ} {env : Env} {vars : List Var} {junk : List (List ℂ)}
    (hdf : Differentiable w i env vars) : IsJacobianOver w i env vars junk
      ((w.roots (w.objs i)).map (fun f => vars.map fun v => eval env (diff v f)) ++
        (if (w.objs i).patched then
          Patch.overwrite (w.objs i).patch 0 (junk.drop (w.objs i).fns.length) else [])) := by
  refine ⟨_, _, rfl, ?_, fun h => by simp [h], fun h => by simp [h]⟩
  rw [List.forall₂_map_right_iff, List.forall₂_same]
  intro f hf
  rw [List.forall₂_map_right_iff, List.forall₂_same]
  intro v hv
  exact diff_correct v env f (hdf f hf).1 ((hdf f hf).2 v hv)

/-- **C21/C22, full statement.** After any history, the Jacobian computed at any point is that of the
current functions of the system (with the patch rows appended). -/
def C22_full : Prop :=
  ∀ (simp : Node → Node), (∀ e n, eval e (simp n) = eval e n) →
  ∀ (ops : List SysOp) (w : World), run simp ops World.init = some w →
    ∀ i vars x env junk, Evaluable w i vars → Binds vars x env → Differentiable w i env vars →
      ((w.objs i).patched = true → Patch.numVariables (w.objs i).patch = vars.length) →
      Shaped w i vars junk →
      ((w.objs i).path = none →
        ∃ J w', jacAt simp w i junk x = some (J, w') ∧ IsJacobian w i env vars J) ∧
      ∀ p, (w.objs i).path = some p →
        ∃ J w', jacAtTime simp w i junk x (env p) = some (J, w') ∧ IsJacobian w i env vars J

/-- **C22 (partial).** After every history of safe operations, for systems which are patched or never
were, entry `(i,j)` of the Jacobian is the partial derivative of the current `i`-th function with
respect to the `j`-th variable, and patch rows carry their coefficients in their block.
Missing: unsafe operations (`+=`, `*=`, reordering, change of method, `CopyVariableStructure` on a
differentiated system or on shared functions) and the entries of patch rows outside their blocks;
refuted below. -/
theorem C22_partial (simp : Node → Node) (hsimp : ∀ e n, eval e (simp n) = eval e n)
    (ops : List SysOp) (w : World)
    (hsafe : SafeRun simp ops World.init) (hrun : run simp ops World.init = some w)
    (i : ℕ) (vars : List Var) (x : List ℂ) (env : Env) (junk : List (List ℂ))
    (he : Evaluable w i vars) (hb : Binds vars x env) (hdf : Differentiable w i env vars)
    (hpv : (w.objs i).patched = true → Patch.numVariables (w.objs i).patch = vars.length)
    (hup : (w.objs i).patched = false → (w.objs i).patch = [])
    (hj : Shaped w i vars junk) :
    ((w.objs i).path = none →
      ∃ J w', jacAt simp w i junk x = some (J, w') ∧ IsJacobianOver w i env vars junk J) ∧
    ∀ p, (w.objs i).path = some p →
      ∃ J w', jacAtTime simp w i junk x (env p) = some (J, w') ∧
        IsJacobianOver w i env vars junk J := by
  have hg := run_good ops _ _ (good_init simp) hsafe hrun
  have hl : x.length = vars.length := by rw [← hb]; simp
  have main : ∀ w', Touched simp w w' i → Ready w' i vars env → ∃ J w'',
      jacStored simp w' i junk = some (J, w'') ∧ IsJacobianOver w i env vars junk J := by
    intro w' ht hr
    obtain ⟨w'', h⟩ := jacStored_ready hsimp (junk := junk) ht.sync ht.diffed (ht.evaluable he) hr
      (by rw [ht.patched, ht.patch]; exact hpv) (by rw [ht.patched, ht.patch]; exact hup)
      ⟨by rw [hj.1]; simp [Obj.total, ht.fns, ht.patch], hj.2⟩
    rw [ht.roots, ht.patched, ht.patch, ht.fns] at h
    exact ⟨_, _, h, isJacobianOver_rows hdf⟩
  constructor
  · intro hp
    obtain ⟨w', h1, ht, _, hr⟩ := ready_space (hg.sync i) he hb hp
    obtain ⟨J, w'', h2, h3⟩ := main w' ht hr
    exact ⟨J, w'', by simp [jacAt, he.listed, hl, hp, h1, h2], h3⟩
  · intro p hp
    obtain ⟨w', w1, h1, h1', ht, _, hr⟩ := ready_time (t := env p) (hg.sync i) he hb hp rfl
    obtain ⟨J, w'', h2, h3⟩ := main w1 ht hr
    exact ⟨J, w'', by simp [jacAtTime, he.listed, hl, hp, h1, h1', h2], h3⟩

/-- **C21, full statement**: as `C22_full`, for histories of safe operations only. -/
def C21_full : Prop :=
  ∀ (simp : Node → Node), (∀ e n, eval e (simp n) = eval e n) →
  ∀ (ops : List SysOp) (w : World), SafeRun simp ops World.init → run simp ops World.init = some w →
    ∀ i vars x env junk, Evaluable w i vars → Binds vars x env → Differentiable w i env vars →
      ((w.objs i).patched = true → Patch.numVariables (w.objs i).patch = vars.length) →
      ((w.objs i).patched = false → (w.objs i).patch = []) →
      Shaped w i vars junk → (w.objs i).path = none →
        ∃ J w', jacAt simp w i junk x = some (J, w') ∧ IsJacobian w i env vars J

/-- With a single patched group there is nothing outside the block. -/
theorem overwrite_single (c r : List ℂ) (n : ℕ) (h : c.length = n) (hr : r.length = n) :
    Patch.overwrite [c] 0 [r] = Patch.blockRows [c] 0 n := by
  simp [Patch.overwrite, Patch.blockRows, h, hr, List.drop_eq_nil_of_le]

/-- **C21 (partial).** The Jacobian is exactly as it should be when the system is unpatched, has a
single patched group, or when the memory of the result matrix happens to be zero. Missing: patched
systems with several groups, where the entries of a patch row outside its block are uninitialised
memory (`C21_refuted`). -/
theorem C21_partial (simp : Node → Node) (hsimp : ∀ e n, eval e (simp n) = eval e n)
    (ops : List SysOp) (w : World)
    (hsafe : SafeRun simp ops World.init) (hrun : run simp ops World.init = some w)
    (i : ℕ) (vars : List Var) (x : List ℂ) (env : Env) (junk : List (List ℂ))
    (he : Evaluable w i vars) (hb : Binds vars x env) (hdf : Differentiable w i env vars)
    (hpv : (w.objs i).patched = true → Patch.numVariables (w.objs i).patch = vars.length)
    (hup : (w.objs i).patched = false → (w.objs i).patch = [])
    (hj : Shaped w i vars junk) (hp : (w.objs i).path = none)
    (hz : (w.objs i).patched = false ∨ (w.objs i).patch.length = 1 ∨
      ∀ r ∈ junk, r = List.replicate vars.length 0) :
    ∃ J w', jacAt simp w i junk x = some (J, w') ∧ IsJacobian w i env vars J := by
  obtain ⟨J, w', h, rows, pr, h1, h2, h3, h4⟩ := (C22_partial simp hsimp ops w hsafe hrun i vars x env
    junk he hb hdf hpv hup hj).1 hp
  refine ⟨J, w', h, rows, pr, h1, h2, fun hpt => ?_, h4⟩
  rw [h3 hpt]
  have hdl : (junk.drop (w.objs i).fns.length).length = (w.objs i).patch.length := by
    simp [hj.1, Obj.total]
  rcases hz with hz | hz | hz
  · rw [hz] at hpt; simp at hpt
  · rw [hz] at hdl
    obtain ⟨r, hr⟩ := List.length_eq_one_iff.1 hdl
    obtain ⟨c, hc⟩ := List.length_eq_one_iff.1 hz
    rw [hr, hc]
    refine overwrite_single c r vars.length ?_ (hj.2 r (List.mem_of_mem_drop (hr ▸ List.mem_singleton_self r)))
    have := hpv hpt
    rw [hc] at this
    simpa [Patch.numVariables] using this
  · have : junk.drop (w.objs i).fns.length =
        List.replicate (w.objs i).patch.length (List.replicate vars.length 0) :=
      List.eq_replicate_iff.2 ⟨hdl, fun r hr => hz r (List.mem_of_mem_drop hr)⟩
    rw [this, Patch.overwrite_zero _ _ _ (by rw [hpv hpt]; simp), Nat.sub_zero]

theorem timeRows_map (simp : Node → Node) (fs : List Node) (t : Var) (env : Env) :
    timeRows (fs.map fun f => simp (diff t f)) env fs.length =
      some (fs.map fun f => eval env (simp (diff t f))) := by
  unfold timeRows
  rw [mapM_some (g := fun ii => match fs[ii]? with
      | some f => eval env (simp (diff t f)) | none => 0)]
  · congr 1
    apply List.ext_getElem
    · simp
    · intro n h1 h2
      have : n < fs.length := by simpa using h1
      simp [List.getElem?_eq_getElem this]
  · intro ii hii
    have hi : ii < fs.length := by simpa using hii
    simp [List.getElem?_eq_getElem hi]

/-- **C70 (partial).** After every history of safe operations, for a system with path variable `p`
(with one patch per variable group if patched, none if not patched), `TimeDerivative(x,t)` lists the
partial derivatives of the current functions with respect to the path variable at `(x,t)`, followed by
a zero for every patch. Missing: unsafe histories, as for C22. -/
theorem C70_partial (simp : Node → Node) (hsimp : ∀ e n, eval e (simp n) = eval e n)
    (ops : List SysOp) (w : World)
    (hsafe : SafeRun simp ops World.init) (hrun : run simp ops World.init = some w)
    (i : ℕ) (vars : List Var) (x : List ℂ) (env : Env) (junk : List ℂ) (p : Var)
    (he : Evaluable w i vars) (hb : Binds vars x env) (hdf : Differentiable w i env [p])
    (hpv : (w.objs i).patched = true → (w.objs i).patch.length =
      (w.objs i).vs.groups.length + (w.objs i).vs.homGroups.length)
    (hup : (w.objs i).patched = false → (w.objs i).patch = [])
    (hj : junk.length = (w.objs i).total) (hp : (w.objs i).path = some p) :
    ∃ ds w', timeAt simp w i junk x (env p) =
        some (ds ++ List.replicate (w.objs i).patch.length 0, w') ∧
      List.Forall₂ (fun f d => IsPartialDeriv f p env d) (w.roots (w.objs i)) ds := by
  have hg := run_good ops _ _ (good_init simp) hsafe hrun
  obtain ⟨w0, w1, h1, h1', ht, _, hr⟩ := ready_time (t := env p) (hg.sync i) he hb hp rfl
  refine ⟨(w.roots (w.objs i)).map fun f => eval env (diff p f), w1.set i (w1.objs i), ?_, ?_⟩
  · have he1 := ht.evaluable he
    have hnf : (w1.roots (w1.objs i)).length = (w1.objs i).fns.length := by simp [World.roots]
    have hrd : ∀ f ∈ w1.roots (w1.objs i), _ := fun f hf => hr _ (closed_diff p (he1.closed f hf))
    have hvals : timeValues w1 (w1.objs i) =
        some ((w1.roots (w1.objs i)).map fun f => eval env (diff p f)) := by
      obtain ⟨vars', hv', _, h3, h4⟩ := ht.sync.derivs ht.diffed
      have h3' := h3 p (ht.path.trans hp)
      unfold timeValues
      cases hm : (w1.objs i).method with
      | functionTree =>
        dsimp only
        rw [h3', ← hnf, timeRows_map]
        congr 1
        exact List.map_congr_left fun f hf => by rw [hsimp]; exact (hrd f hf).1 hm
      | slp =>
        obtain ⟨_, _, h7, _, h9, _⟩ := h4 hm
        dsimp only
        rw [h7, h9 p (ht.path.trans hp), h3', timeRows_map]
        congr 1
        exact List.map_congr_left fun f hf => by rw [hsimp]; exact (hrd f hf).2 hm
    have hlen : junk.length = (w1.objs i).fns.length + (w1.objs i).patch.length := by
      rw [hj, ht.fns, ht.patch, Obj.total]
    unfold timeAt
    simp only [h1, h1', Option.bind_eq_bind, Option.bind_some, timeStored, ht.path, hp,
      Option.isNone_some, Bool.false_eq_true, or_false]
    rw [if_neg (by omega)]
    simp only [ensureDiff, ht.diffed, if_true, Option.bind_some, hvals]
    rw [blit_all (by simp [hnf, hlen]), Option.bind_some]
    simp only [List.length_map, hnf]
    have hdl : (junk.drop (w1.objs i).fns.length).length = (w1.objs i).patch.length := by
      simp [hlen]
    unfold timePatch
    rw [← ht.roots]
    cases hpt : (w1.objs i).patched with
    | false =>
      have hnil : (w.objs i).patch = [] := hup (ht.patched ▸ hpt)
      rw [ht.patch, hnil] at hdl
      simp only [List.length_nil, List.length_eq_zero_iff] at hdl
      simp [hnil, hdl]
    | true =>
      have hpl := hpv (ht.patched ▸ hpt)
      rw [if_pos rfl, ht.vs, ← hpl, if_neg (by simp [hnf, hlen, ht.patch])]
      simp only [Option.bind_some, Option.some.injEq, Prod.mk.injEq, and_true]
      rw [List.take_append_of_le_length (by simp [hnf]), List.take_of_length_le (by simp [hnf]),
        List.drop_eq_nil_of_le (by simp [hnf, hlen, ht.patch])]
      simp
  · rw [List.forall₂_map_right_iff, List.forall₂_same]
    intro f hf
    exact diff_correct p env f (hdf f hf).1 ((hdf f hf).2 p (by simp))

end B2.Sys
