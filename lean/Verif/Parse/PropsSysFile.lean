import Verif.Parse.SysFileProof
import Verif.Tree.DegreeProof
import Mathlib.Logic.Equiv.List

/-!
# C134-C136: systems read from text
-/

namespace B2.Parse.SysFile

open B2 B2.Parse

/-! ## C134: a file is read as the system it describes -/

/-- C134 in full: a file with the usual syntax, in which the names introduced differ from each other and from the reserved
names, is read as the system that it describes, up to expressions of the same value. -/
def C134_full : Prop :=
  ∀ (addr : Name → ℕ), Function.Injective addr → ∀ (F : List Stm) (w : List Char), Syntax addr true [] [] F → Ws w →
    (intro [] F).Nodup → (∀ n ∈ intro [] F, n ∉ B2.Parse.constants ++ declarative) →
    ∃ S r, parseSystem addr (fileText F w) = some S ∧ Describes addr F { S with root := r } ∧
      ∀ a, Option.Rel (fun e e' => ∀ env, eval env e = eval env e') (S.root a) (r a)

/-- C134 exactly, for expressions as in `C57_partial`: if no reserved name and no name introduced earlier is a prefix of a
name introduced, the file is read as the system that it describes; otherwise it is rejected.
Missing from the full claim: names that extend other names, and the expressions excluded in C57. -/
theorem C134_partial (addr : Name → ℕ) (ha : Function.Injective addr) (F : List Stm) (w : List Char)
    (hs : Syntax addr false [] [] F) (hw : Ws w) :
    (((∀ n ∈ intro [] F, ∀ k ∈ B2.Parse.constants ++ declarative, ¬ k <+: n) ∧
        (intro [] F).Pairwise fun a b => ¬ a <+: b) →
      ∃ S, parseSystem addr (fileText F w) = some S ∧ Describes addr F S) ∧
    (¬ ((∀ n ∈ intro [] F, ∀ k ∈ B2.Parse.constants ++ declarative, ¬ k <+: n) ∧
        (intro [] F).Pairwise fun a b => ¬ a <+: b) →
      parseSystem addr (fileText F w) = none) := by
  have h := run_text addr F w hw St.init inv_init hs
  constructor
  · intro hf
    refine ⟨(F.foldl (after addr) St.init).sys, ?_, describes_fold addr ha F hs⟩
    unfold parseSystem
    rw [h.1 hf]
    rfl
  · intro hf
    unfold parseSystem
    rw [h.2 hf]
    rfl

/-- An injective numbering of names. -/
def addr0 (n : Name) : ℕ := Encodable.encode (n.map Char.toNat)

theorem addr0_inj : Function.Injective addr0 := by
  intro a b h
  have h1 := Encodable.encode_injective h
  refine (List.map_injective_iff.2 ?_) h1
  intro c d hcd
  exact Char.toNat_inj.1 hcd

/-- An item without white space. -/
def item (n : Name) : Item := ⟨[], n, []⟩

theorem item_ok (c : Char) (r : List Char) (hc : isAlpha c = true) (hr : ∀ d ∈ c :: r, isNameChar d = true)
    (hf : ∀ f : Fn, c :: r ≠ f.name) :
    Ws (item (c :: r)).pre ∧ IsName (item (c :: r)).name ∧ Ws (item (c :: r)).post ∧ ∀ f : Fn, (item (c :: r)).name ≠ f.name :=
  ⟨ws_nil', ⟨⟨c, r, rfl, hc⟩, hr⟩, ws_nil', hf⟩

/-- The declaration of `x` and `x1`. -/
def xx1 : List Stm := [.decl [] .group [item ['x'], item ['x', '1']]]

theorem xx1_syntax (full : Bool) : Syntax addr0 full [] [] xx1 := by
  refine ⟨ws_nil', by simp, by decide, ?_, trivial⟩
  intro i hi
  simp only [List.mem_cons, List.not_mem_nil, or_false] at hi
  rcases hi with rfl | rfl
  · exact item_ok _ _ (by decide) (by decide) (by intro f; cases f <;> decide)
  · exact item_ok _ _ (by decide) (by decide) (by intro f; cases f <;> decide)

/-- C134 in full fails: a file that declares `x` and `x1` is rejected. -/
theorem C134_refuted : ¬ C134_full := by
  intro h
  obtain ⟨S, r, h1, -⟩ := h addr0 addr0_inj xx1 [] (xx1_syntax true) ws_nil' (by decide) (by decide)
  rw [(C134_partial addr0 addr0_inj xx1 [] (xx1_syntax false) ws_nil').2 ?_] at h1
  · cases h1
  · rintro ⟨-, h2⟩
    exact absurd h2 (by decide)

/-! ## C135: a file read from top to bottom -/

/-- The functions of a system. -/
def Sys.allFns (S : Sys) : List Name := S.functions ++ S.constants ++ S.parameters ++ S.subs

/-- The address is that of a function of the system. -/
def Sys.IsFn (addr : Name → ℕ) (S : Sys) (a : ℕ) : Prop := ∃ n ∈ S.allFns, addr n = a

/-- Evaluation of a symbol, `Handle::FreshEval`, function.cpp 49-72, and `Variable`: a function is evaluated by evaluating
its entry node, at a point given by the values of the variables.  There is no value if the entry node is null (null pointer
access, or the exception of `EnsureNotEmpty`, function.cpp 118-124, when the function is reset first), or if the evaluation
does not end. -/
inductive Ev (addr : Name → ℕ) (S : Sys) (env : ℕ → ℂ) : ℕ → ℂ → Prop
  | var (a) : ¬ S.IsFn addr a → Ev addr S env a (env a)
  | fn (a) (e : Node) (ρ : ℕ → ℂ) : S.IsFn addr a → S.root a = some e → (∀ b ∈ e.vars, Ev addr S env b (ρ b)) →
      Ev addr S env a (eval ρ e)

/-- Values are unique. -/
theorem ev_unique (addr : Name → ℕ) (S : Sys) (env : ℕ → ℂ) (a : ℕ) (v v' : ℂ) (h : Ev addr S env a v)
    (h' : Ev addr S env a v') : v = v' := by
  induction h generalizing v' with
  | var a ha =>
    cases h' with
    | var => rfl
    | fn _ _ _ hb => exact absurd hb ha
  | fn a e ρ ha hr hv ih =>
    cases h' with
    | var _ hb => exact absurd ha hb
    | fn _ e' ρ' hb hr' hv' =>
      rw [hr] at hr'
      simp only [Option.some.injEq] at hr'
      subst hr'
      exact eval_congr e fun w hw => ih w hw _ (hv' w hw)

/-- What a reader expects: the statements are carried out from top to bottom, each assignment with the values known at that
place. -/
noncomputable def store (addr : Name → ℕ) (ρ : ℕ → ℂ) : List Stm → ℕ → ℂ
  | [] => ρ
  | .decl .. :: F => store addr ρ F
  | .assign _ n _ _ e _ :: F => store addr (Function.update ρ (addr n) (eval ρ e)) F

/-- The names assigned, in order. -/
def assignedNames : List Stm → List Name
  | [] => []
  | .decl .. :: F => assignedNames F
  | .assign _ n _ _ _ _ :: F => n :: assignedNames F

/-- The names of functions, whether declared or assigned. -/
def fnNames (F : List Stm) : List Name :=
  (declared .funcs F).flatten ++ (declared .consts F).flatten ++ (declared .params F).flatten ++ assignedNames F

/-- Expressions use functions of the list only after they have been assigned. -/
def Ordered (addr : Name → ℕ) (fs : List Name) : List Name → List Stm → Prop
  | _, [] => True
  | done, .decl .. :: F => Ordered addr fs done F
  | done, .assign _ n _ _ e _ :: F => (∀ f ∈ fs, addr f ∈ e.vars → f ∈ done) ∧ Ordered addr fs (n :: done) F

/-- The names are new: no reserved name and no earlier name is a prefix of one of them. -/
def NewNames (F : List Stm) : Prop :=
  (∀ n ∈ intro [] F, ∀ k ∈ B2.Parse.constants ++ declarative, ¬ k <+: n) ∧ (intro [] F).Pairwise fun a b => ¬ a <+: b

/-- C135 in full: if the file assigns all its functions, and uses functions only after they have been assigned, then the
functions of the system read have the values that the file gives them when it is read from top to bottom. -/
def C135_full : Prop :=
  ∀ (addr : Name → ℕ), Function.Injective addr → ∀ (F : List Stm) (w : List Char) (env : ℕ → ℂ),
    Syntax addr false [] [] F → NewNames F → Ws w → Ordered addr (fnNames F) [] F →
    (∀ n ∈ fnNames F, n ∈ assignedNames F) →
    ∃ S, parseSystem addr (fileText F w) = some S ∧
      ∀ f ∈ S.functions, Ev addr S env (addr f) (store addr env F (addr f))

theorem assigned_eq {n : Name} {F : List Stm} (h : n ∉ assignedNames F) : assigned n F = [] := by
  induction F with
  | nil => rfl
  | cons s F ih =>
    cases s with
    | decl pre k items => exact ih h
    | assign pre m mid txt e post =>
      rw [assignedNames, List.mem_cons, not_or] at h
      have hm : m ≠ n := fun hh => h.1 hh.symm
      have : assigned n (.assign pre m mid txt e post :: F) = assigned n F := by simp [assigned, hm]
      rw [this]
      exact ih h.2

theorem introSubs_mem {fns : List Name} {F : List Stm} : ∀ n ∈ introSubs fns F, n ∈ assignedNames F := by
  induction F generalizing fns with
  | nil => intro n hn; cases hn
  | cons s F ih =>
    intro n hn
    cases s with
    | decl pre k items => exact ih n hn
    | assign pre m mid txt e post =>
      rw [introSubs] at hn
      rw [assignedNames]
      split_ifs at hn
      · exact List.mem_cons_of_mem _ (ih n hn)
      · rcases List.mem_cons.1 hn with rfl | hn
        · exact List.mem_cons_self
        · exact List.mem_cons_of_mem _ (ih n hn)

/-- An assigned name is declared as a function or introduced by the assignment. -/
theorem assigned_fn {fns : List Name} {F : List Stm} : ∀ n ∈ assignedNames F,
    n ∈ fns ∨ n ∈ (declared .funcs F).flatten ++ (declared .consts F).flatten ++ (declared .params F).flatten ∨
      n ∈ introSubs fns F := by
  induction F generalizing fns with
  | nil => intro n hn; cases hn
  | cons s F ih =>
    intro n hn
    cases s with
    | decl pre k items =>
      have h := ih (fns := if k.isFn then fns ++ items.map (·.name) else fns) n hn
      rw [introSubs]
      rcases h with h | h | h
      · cases k <;> simp only [Kw.isFn, if_true, Bool.false_eq_true, if_false] at h
        case funcs | consts | params =>
          rcases List.mem_append.1 h with h | h
          · exact Or.inl h
          · right; left
            simp only [declared, List.filterMap_cons, List.mem_append, reduceIte, reduceCtorEq, List.flatten_cons]
            tauto
        all_goals exact Or.inl h
      · right; left
        cases k <;>
          simp only [declared, List.filterMap_cons, List.mem_append, reduceIte, reduceCtorEq, List.flatten_cons] at h ⊢ <;>
          tauto
      · exact Or.inr (Or.inr h)
    | assign pre m mid txt e post =>
      have hd : ∀ k, declared k (.assign pre m mid txt e post :: F) = declared k F := fun k => by simp [declared]
      rw [hd, hd, hd, introSubs]
      rw [assignedNames] at hn
      split_ifs with hm
      · rcases List.mem_cons.1 hn with rfl | hn
        · exact Or.inl hm
        · exact ih n hn
      · rcases List.mem_cons.1 hn with rfl | hn
        · exact Or.inr (Or.inr List.mem_cons_self)
        · rcases ih (fns := fns ++ [m]) n hn with h | h | h
          · rcases List.mem_append.1 h with h | h
            · exact Or.inl h
            · rw [List.mem_singleton.1 h]
              exact Or.inr (Or.inr List.mem_cons_self)
          · exact Or.inr (Or.inl h)
          · exact Or.inr (Or.inr (List.mem_cons_of_mem _ h))

/-- The functions of a system described by a file. -/
theorem isFn_iff {addr : Name → ℕ} {F : List Stm} {S : Sys} (h : Describes addr F S) (n : Name) :
    n ∈ S.allFns ↔ n ∈ fnNames F := by
  unfold Sys.allFns fnNames
  rw [h.functions, h.constants, h.parameters, h.subs]
  constructor
  · intro hn
    rcases List.mem_append.1 hn with hn | hn
    · exact List.mem_append_left _ hn
    · exact List.mem_append_right _ (introSubs_mem n hn)
  · intro hn
    rcases List.mem_append.1 hn with hn | hn
    · exact List.mem_append_left _ hn
    · rcases assigned_fn (fns := []) n hn with h | h | h
      · cases h
      · exact List.mem_append_left _ h
      · exact List.mem_append_right _ h

theorem store_ev (addr : Name → ℕ) (ha : Function.Injective addr) (S : Sys) (env : ℕ → ℂ) (fs : List Name)
    (hfs : ∀ n, n ∈ S.allFns ↔ n ∈ fs) (F : List Stm) : ∀ (done : List Name) (ρ : ℕ → ℂ),
    (assignedNames F).Nodup → (∀ n ∈ assignedNames F, n ∉ done ∧ n ∈ fs) →
    (∀ n ∈ assignedNames F, S.root (addr n) = (assigned n F).getLast?) →
    Ordered addr fs done F → (∀ n ∈ done, Ev addr S env (addr n) (ρ (addr n))) →
    (∀ a, ¬ S.IsFn addr a → ρ a = env a) →
    ∀ n, (n ∈ done ∨ n ∈ assignedNames F) → Ev addr S env (addr n) (store addr ρ F (addr n)) := by
  induction F with
  | nil =>
    intro done ρ _ _ _ _ hd _ n hn
    rcases hn with hn | hn
    · exact hd n hn
    · cases hn
  | cons s F ih =>
    intro done ρ hnd hdis hroot hord hd hv n hn
    cases s with
    | decl pre k items => exact ih done ρ hnd hdis hroot hord hd hv n hn
    | assign pre m mid txt e post =>
      rw [assignedNames] at hnd hdis hroot hn
      obtain ⟨h1, h2⟩ := List.nodup_cons.1 hnd
      obtain ⟨o1, o2⟩ := hord
      have hme : S.root (addr m) = some e := by
        rw [hroot m List.mem_cons_self]
        have : assigned m (.assign pre m mid txt e post :: F) = e :: assigned m F := by simp [assigned]
        rw [this, assigned_eq h1]
        rfl
      have hmv : Ev addr S env (addr m) (eval ρ e) := by
        refine .fn _ e ρ ⟨m, (hfs m).2 (hdis m List.mem_cons_self).2, rfl⟩ hme fun b hb => ?_
        by_cases hfn : S.IsFn addr b
        · obtain ⟨f, hf, rfl⟩ := hfn
          exact hd f (o1 f ((hfs f).1 hf) hb)
        · rw [hv b hfn]
          exact .var b hfn
      refine ih (m :: done) (Function.update ρ (addr m) (eval ρ e)) h2 ?_ ?_ o2 ?_ ?_ n ?_
      · intro k hk
        obtain ⟨d1, d2⟩ := hdis k (List.mem_cons_of_mem _ hk)
        refine ⟨?_, d2⟩
        rw [List.mem_cons, not_or]
        exact ⟨fun hh => h1 (hh ▸ hk), d1⟩
      · intro k hk
        rw [hroot k (List.mem_cons_of_mem _ hk)]
        have hkm : m ≠ k := fun hh => h1 (hh ▸ hk)
        have : assigned k (.assign pre m mid txt e post :: F) = assigned k F := by simp [assigned, hkm]
        rw [this]
      · intro k hk
        rcases List.mem_cons.1 hk with rfl | hk
        · rw [Function.update_self]; exact hmv
        · have hkm : k ≠ m := fun hh => (hdis m List.mem_cons_self).1 (hh ▸ hk)
          rw [Function.update_of_ne fun hh => hkm (ha hh)]
          exact hd k hk
      · intro a hfn
        have : a ≠ addr m := by
          rintro rfl
          exact hfn ⟨m, (hfs m).2 (hdis m List.mem_cons_self).2, rfl⟩
        rw [Function.update_of_ne this]
        exact hv a hfn
      · rcases hn with hn | hn
        · exact Or.inl (List.mem_cons_of_mem _ hn)
        · rcases List.mem_cons.1 hn with rfl | hn
          · exact Or.inl List.mem_cons_self
          · exact Or.inr hn

/-- C135 for files that assign every name at most once: every function has the value of the file read from top to bottom,
and no other value (`ev_unique`).  Missing: names assigned twice. -/
theorem C135_partial (addr : Name → ℕ) (ha : Function.Injective addr) (F : List Stm) (w : List Char) (env : ℕ → ℂ)
    (hs : Syntax addr false [] [] F) (hn : NewNames F) (hw : Ws w) (ho : Ordered addr (fnNames F) [] F)
    (hall : ∀ n ∈ fnNames F, n ∈ assignedNames F) (hnd : (assignedNames F).Nodup) :
    ∃ S, parseSystem addr (fileText F w) = some S ∧
      ∀ f ∈ S.functions, ∀ v, Ev addr S env (addr f) v ↔ v = store addr env F (addr f) := by
  obtain ⟨S, h1, h2⟩ := (C134_partial addr ha F w hs hw).1 hn
  refine ⟨S, h1, fun f hf v => ?_⟩
  have hff : f ∈ fnNames F := by
    rw [h2.functions] at hf
    exact List.mem_append_left _ (List.mem_append_left _ (List.mem_append_left _ hf))
  have hev := store_ev addr ha S env (fnNames F) (isFn_iff h2) F [] env hnd
    (fun n hn => ⟨List.not_mem_nil, List.mem_append_right _ hn⟩) (fun n _ => h2.root n) ho
    (fun n hn => by cases hn) (fun _ _ => rfl) f (Or.inr (hall f hff))
  exact ⟨fun hv => ev_unique addr S env _ _ _ hv hev, fun hv => hv ▸ hev⟩

/-! ### Files for the examples -/

theorem conv_sym {T : Table} {full : Bool} {n : Name} {e : Node} (h : (n, e) ∈ T) (k : ℕ) (hk : k ≤ 4) :
    Conv T full false k n e := by
  have h4 : Conv T full false 4 n e := by
    have := Conv.sym (full := full) (lit := false) [] n e ws_nil' h
    simpa using this
  rcases Nat.lt_or_ge k 4 with h' | h'
  · have h3 : Conv T full false 3 n e := .up 3 _ _ (by omega) h4
    have h2 : Conv T full false 2 n e := .up 2 _ _ (by omega) h3
    have h1 : Conv T full false 1 n e := .up 1 _ _ (by omega) h2
    have h0 : Conv T full false 0 n e := .up 0 _ _ (by omega) h1
    interval_cases k <;> assumption
  · have : k = 4 := by omega
    subst this; exact h4

/-- `n=m;` without white space. -/
def copy (n m : Name) : Stm := .assign [] n [] m (.var (addr0 m)) []

/-- Names of one letter other than `e`, `i`. -/
theorem isName_one (c : Char) (h : isAlpha c = true) : IsName [c] ∧ ∀ f : Fn, [c] ≠ f.name := by
  refine ⟨⟨⟨c, [], rfl, h⟩, ?_⟩, ?_⟩
  · intro d hd
    rw [List.mem_singleton.1 hd]
    simp [isNameChar, isAlnum, h]
  · intro f hf
    have := congrArg List.length hf
    cases f <;> simp [Fn.name] at this

theorem mem_tab {syms : List Name} {n : Name} (h : n ∈ syms) : (n, Node.var (addr0 n)) ∈ table addr0 syms :=
  List.mem_append_left _ (List.mem_map.2 ⟨n, h, rfl⟩)

theorem items_ok_one {cs : List Char} (h : ∀ c ∈ cs, isAlpha c = true) : ∀ i ∈ cs.map fun c => item [c],
    Ws i.pre ∧ IsName i.name ∧ Ws i.post ∧ ∀ f : Fn, i.name ≠ f.name := by
  intro i hi
  obtain ⟨c, hc, rfl⟩ := List.mem_map.1 hi
  exact ⟨ws_nil', (isName_one c (h c hc)).1, ws_nil', (isName_one c (h c hc)).2⟩

/-- `variable_groupx,y;functionf;s=x;f=s;s=y;` -/
def twice : List Stm :=
  [.decl [] .group [item ['x'], item ['y']], .decl [] .funcs [item ['f']], copy ['s'] ['x'], copy ['f'] ['s'],
    copy ['s'] ['y']]

theorem twice_syntax : Syntax addr0 false [] [] twice :=
  ⟨ws_nil', by simp, by decide, items_ok_one (cs := ['x', 'y']) (by decide),
    ws_nil', by simp, by decide, items_ok_one (cs := ['f']) (by decide),
    ws_nil', (isName_one _ (by decide)).1, (isName_one _ (by decide)).2, ws_nil', ws_nil',
    conv_sym (mem_tab (by decide)) 0 (by omega),
    ws_nil', (isName_one _ (by decide)).1, (isName_one _ (by decide)).2, ws_nil', ws_nil',
    conv_sym (mem_tab (by decide)) 0 (by omega),
    ws_nil', (isName_one _ (by decide)).1, (isName_one _ (by decide)).2, ws_nil', ws_nil',
    conv_sym (mem_tab (by decide)) 0 (by omega),
    trivial⟩

theorem twice_new : NewNames twice := by
  unfold NewNames
  decide

theorem addr0_eq (a b : Name) : addr0 a = addr0 b ↔ a = b := addr0_inj.eq_iff

/-- C135 in full fails: when `s` is assigned again after `f = s`, the value of `f` changes as well. -/
theorem C135_refuted : ¬ C135_full := by
  intro h
  obtain ⟨S, h1, h2⟩ := h addr0 addr0_inj twice [] (fun a => if a = addr0 ['x'] then 1 else 0) twice_syntax twice_new ws_nil'
    (by simp [Ordered, twice, copy, fnNames, declared, assignedNames, item, Node.vars, addr0_eq]) (by decide)
  obtain ⟨S', g1, g2⟩ := (C134_partial addr0 addr0_inj twice [] twice_syntax ws_nil').1 twice_new
  rw [h1] at g1
  simp only [Option.some.injEq] at g1
  subst g1
  have hf : (['f'] : Name) ∈ S.functions := by rw [g2.functions]; decide
  have e1 := h2 _ hf
  have hfn : ∀ n : Name, S.IsFn addr0 (addr0 n) ↔ n = ['f'] ∨ n = ['s'] := by
    intro n
    unfold Sys.IsFn
    constructor
    · rintro ⟨m, hm, h'⟩
      rw [isFn_iff g2] at hm
      rw [addr0_eq] at h'
      subst h'
      simp [fnNames, twice, copy, declared, assignedNames, item] at hm
      tauto
    · intro hn
      refine ⟨n, ?_, rfl⟩
      rw [isFn_iff g2]
      rcases hn with rfl | rfl <;> decide
  have r1 : S.root (addr0 ['f']) = some (.var (addr0 ['s'])) := by rw [g2.root]; rfl
  have r2 : S.root (addr0 ['s']) = some (.var (addr0 ['y'])) := by rw [g2.root]; rfl
  let env : ℕ → ℂ := fun a => if a = addr0 ['x'] then 1 else 0
  have e2 : Ev addr0 S env (addr0 ['s']) (env (addr0 ['y'])) := by
    refine .fn _ _ (fun _ => env (addr0 ['y'])) ((hfn _).2 (Or.inr rfl)) r2 ?_
    intro b hb
    rw [Node.vars, List.mem_singleton] at hb
    subst hb
    exact .var _ (by rw [hfn]; decide)
  have e3 : Ev addr0 S env (addr0 ['f']) (env (addr0 ['y'])) := by
    refine .fn _ _ (fun _ => env (addr0 ['y'])) ((hfn _).2 (Or.inl rfl)) r1 ?_
    intro b hb
    rw [Node.vars, List.mem_singleton] at hb
    subst hb
    exact e2
  have := ev_unique addr0 S env _ _ _ e1 e3
  simp [store, twice, copy, eval, env, Function.update_apply, addr0_eq] at this

/-- `variable_groupx,y;functionf;s=x*y;f=s+y;` -/
def nested : List Stm :=
  [.decl [] .group [item ['x'], item ['y']], .decl [] .funcs [item ['f']],
    .assign [] ['s'] [] ['x', '*', 'y'] (mult2 true (.var (addr0 ['x'])) (.var (addr0 ['y']))) [],
    .assign [] ['f'] [] ['s', '+', 'y'] (sum2 true (.var (addr0 ['s'])) (.var (addr0 ['y']))) []]

theorem nested_syntax : Syntax addr0 false [] [] nested := by
  refine ⟨ws_nil', by simp, by decide, items_ok_one (cs := ['x', 'y']) (by decide),
    ws_nil', by simp, by decide, items_ok_one (cs := ['f']) (by decide),
    ws_nil', (isName_one _ (by decide)).1, (isName_one _ (by decide)).2, ws_nil', ws_nil', ?_,
    ws_nil', (isName_one _ (by decide)).1, (isName_one _ (by decide)).2, ws_nil', ws_nil', ?_, trivial⟩
  · exact .up 0 _ _ (by omega) (.up 1 _ _ (by omega) (.mul ['x'] [] ['y'] _ _ ws_nil'
      (conv_sym (mem_tab (by decide)) 2 (by omega)) (conv_sym (mem_tab (by decide)) 3 (by omega))))
  · exact .up 0 _ _ (by omega) (.add ['s'] [] ['y'] _ _ ws_nil'
      (conv_sym (mem_tab (by decide)) 1 (by omega)) (conv_sym (mem_tab (by decide)) 2 (by omega)))

theorem nested_new : NewNames nested := by
  unfold NewNames
  decide

/-- Non-vacuity of `C134_partial`, both directions. -/
example : (∃ S, parseSystem addr0 (fileText nested []) = some S ∧ S.groups = [[['x'], ['y']]] ∧ S.functions = [['f']] ∧
      S.subs = [['s']]) ∧ parseSystem addr0 (fileText xx1 []) = none := by
  obtain ⟨S, h1, h2⟩ := (C134_partial addr0 addr0_inj nested [] nested_syntax ws_nil').1 nested_new
  refine ⟨⟨S, h1, h2.groups.trans ?_, h2.functions.trans ?_, h2.subs.trans ?_⟩, ?_⟩
  · decide
  · decide
  · decide
  · refine (C134_partial addr0 addr0_inj xx1 [] (xx1_syntax false) ws_nil').2 ?_
    rintro ⟨-, h⟩
    exact absurd h (by decide)

/-- Non-vacuity of `C135_partial`: the value of `f` at `x`, `y` is `x y + y`. -/
example (env : ℕ → ℂ) : ∃ S, parseSystem addr0 (fileText nested []) = some S ∧ S.functions = [['f']] ∧
    Ev addr0 S env (addr0 ['f']) (env (addr0 ['x']) * env (addr0 ['y']) + env (addr0 ['y'])) := by
  obtain ⟨S, h1, h2⟩ := C135_partial addr0 addr0_inj nested [] env nested_syntax nested_new ws_nil'
    (by simp [Ordered, nested, fnNames, declared, assignedNames, item, Node.vars, Ops.vars, mult2, sum2, addr0_eq])
    (by decide) (by decide)
  obtain ⟨S', g1, g2⟩ := (C134_partial addr0 addr0_inj nested [] nested_syntax ws_nil').1 nested_new
  rw [h1] at g1
  simp only [Option.some.injEq] at g1
  subst g1
  have hf : S.functions = [['f']] := g2.functions.trans (by decide)
  refine ⟨S, h1, hf, (h2 ['f'] (by rw [hf]; decide) _).2 ?_⟩
  simp [store, nested, eval, evalSum, evalMult, mult2, sum2, Function.update_apply, addr0_eq]

/-- The names of constants and their values. -/
noncomputable def meaning : List (Name × ℂ) :=
  [(['p', 'i'], Real.pi), (['P', 'i'], Real.pi), (['e'], Complex.exp 1), (['E'], Complex.exp 1), (['i'], Complex.I),
    (['I'], Complex.I)]

/-- `functionf;f=k;` -/
def constFile (k : Name) (e : Node) : List Stm := [.decl [] .funcs [item ['f']], .assign [] ['f'] [] k e []]

/-- C135, named constants: in a file read, `pi` and `Pi` are the number π, `e` and `E` the base of the exponential function,
and `i` and `I` the imaginary unit. -/
theorem C135_constants (addr : Name → ℕ) (ha : Function.Injective addr) (env : ℕ → ℂ) (k : Name) (c : ℂ)
    (hk : (k, c) ∈ meaning) :
    ∃ S, parseSystem addr ("functionf;f=".toList ++ k ++ [';']) = some S ∧ S.functions = [['f']] ∧
      ∀ v, Ev addr S env (addr ['f']) v ↔ v = c := by
  obtain ⟨e, he, hv, hc⟩ : ∃ e, (k, e) ∈ table addr [['f']] ∧ e.vars = [] ∧ ∀ ρ, eval ρ e = c := by
    simp only [meaning, List.mem_cons, List.not_mem_nil, or_false, Prod.mk.injEq] at hk
    rcases hk with ⟨rfl, rfl⟩ | ⟨rfl, rfl⟩ | ⟨rfl, rfl⟩ | ⟨rfl, rfl⟩ | ⟨rfl, rfl⟩ | ⟨rfl, rfl⟩
    · exact ⟨.special .pi, by simp [table, constTable], rfl, fun ρ => by simp [eval]⟩
    · exact ⟨.special .pi, by simp [table, constTable], rfl, fun ρ => by simp [eval]⟩
    · exact ⟨.special .e, by simp [table, constTable], rfl, fun ρ => by simp [eval]⟩
    · exact ⟨.special .e, by simp [table, constTable], rfl, fun ρ => by simp [eval]⟩
    · exact ⟨.float 0 1, by simp [table, constTable], rfl, fun ρ => by simp [eval]⟩
    · exact ⟨.float 0 1, by simp [table, constTable], rfl, fun ρ => by simp [eval]⟩
  have hs : Syntax addr false [] [] (constFile k e) :=
    ⟨ws_nil', by simp, by decide, items_ok_one (cs := ['f']) (by decide),
      ws_nil', (isName_one _ (by decide)).1, (isName_one _ (by decide)).2, ws_nil', ws_nil',
      conv_sym he 0 (by omega), trivial⟩
  have hn : NewNames (constFile k e) := by
    have : intro [] (constFile k e) = [['f']] := by simp [constFile, intro, item, Kw.isFn]
    unfold NewNames
    rw [this]
    decide
  have ht : "functionf;f=".toList ++ k ++ [';'] = fileText (constFile k e) [] := by
    have h1 : (Stm.decl [] .funcs [item ['f']]).text = "functionf;".toList := by decide
    have h2 : "functionf;f=".toList = "functionf;".toList ++ ['f', '='] := by decide
    rw [constFile, fileText, fileText, fileText, h1, h2]
    simp only [Stm.text, List.append_assoc, List.nil_append, List.append_nil, List.cons_append]
  obtain ⟨S, h1, h2⟩ := C135_partial addr ha (constFile k e) [] env hs hn ws_nil'
    (by simp [Ordered, constFile, hv]) (by simp [constFile, fnNames, declared, assignedNames, item])
    (by simp [constFile, assignedNames])
  obtain ⟨S', g1, g2⟩ := (C134_partial addr ha (constFile k e) [] hs ws_nil').1 hn
  rw [h1] at g1
  simp only [Option.some.injEq] at g1
  subst g1
  have hf : S.functions = [['f']] := g2.functions.trans (by simp [constFile, declared, item])
  refine ⟨S, by rw [ht]; exact h1, hf, fun v => ?_⟩
  rw [h2 ['f'] (by rw [hf]; decide) v]
  simp [store, constFile, hc]

/-- Non-vacuity of `C135_constants`. -/
example : ∃ S, parseSystem addr0 "functionf;f=I;".toList = some S ∧ Ev addr0 S (fun _ => 0) (addr0 ['f']) Complex.I := by
  obtain ⟨S, h1, -, h2⟩ := C135_constants addr0 addr0_inj (fun _ => 0) ['I'] Complex.I (by simp [meaning])
  exact ⟨S, by simpa using h1, (h2 _).2 rfl⟩

/-! ## C136: accepted systems can be evaluated -/

/-- C136 in full: every function of a system that was read can be evaluated at every point. -/
def C136_full : Prop :=
  ∀ (addr : Name → ℕ), Function.Injective addr → ∀ (s : List Char) (S : Sys), parseSystem addr s = some S →
    ∀ f ∈ S.functions, ∀ env, ∃ v, Ev addr S env (addr f) v

/-- `functionf;` -/
def undef : List Stm := [.decl [] .funcs [item ['f']]]

theorem undef_syntax : Syntax addr0 false [] [] undef :=
  ⟨ws_nil', by simp, by decide, items_ok_one (cs := ['f']) (by decide), trivial⟩

/-- C136 in full fails: a function may be declared and never assigned. -/
theorem C136_refuted : ¬ C136_full := by
  intro h
  obtain ⟨S, h1, h2⟩ := (C134_partial addr0 addr0_inj undef [] undef_syntax ws_nil').1
    (show NewNames undef by unfold NewNames; decide)
  have hf : (['f'] : Name) ∈ S.functions := by rw [h2.functions]; decide
  obtain ⟨v, hv⟩ := h addr0 addr0_inj _ S h1 ['f'] hf fun _ => 0
  cases hv with
  | var _ hn => exact hn ⟨['f'], by simp [Sys.allFns, hf], rfl⟩
  | fn _ e ρ _ hr _ =>
    have := h2.root ['f']
    rw [hr] at this
    exact absurd this (by simp [assigned, undef])

/-- A function depends on the symbols in its entry node. -/
def Dep (addr : Name → ℕ) (S : Sys) (b a : ℕ) : Prop := S.IsFn addr a ∧ ∃ e, S.root a = some e ∧ b ∈ e.vars

/-- C136 exactly: a symbol can be evaluated if and only if it depends, directly or not, neither on a function without
entry node nor on itself or another function that depends on itself (`Acc`: every chain of dependencies ends).
Missing from the full claim: that the parser rejects the other systems. -/
theorem C136_partial (addr : Name → ℕ) (S : Sys) (env : ℕ → ℂ) (a : ℕ) :
    (∃ v, Ev addr S env a v) ↔ Acc (Dep addr S) a ∧
      ∀ b, Relation.ReflTransGen (Dep addr S) b a → S.IsFn addr b → S.root b ≠ none := by
  constructor
  · rintro ⟨v, hv⟩
    induction hv with
    | var a ha =>
      refine ⟨⟨a, fun b hb => absurd hb.1 ha⟩, fun b hb hf => ?_⟩
      cases hb with
      | refl => exact absurd hf ha
      | tail _ hd => exact absurd hd.1 ha
    | fn a e ρ ha hr _ ih =>
      refine ⟨⟨a, ?_⟩, fun b hb hf => ?_⟩
      · rintro b ⟨_, e', he', hb⟩
        rw [hr] at he'
        simp only [Option.some.injEq] at he'
        subst he'
        exact (ih b hb).1
      · cases hb with
        | refl => rw [hr]; simp
        | tail h hd =>
          obtain ⟨_, e', he', hc⟩ := hd
          rw [hr] at he'
          simp only [Option.some.injEq] at he'
          subst he'
          exact (ih _ hc).2 b h hf
  · rintro ⟨hacc, hroot⟩
    induction hacc with
    | intro a _ ih =>
      by_cases ha : S.IsFn addr a
      · obtain ⟨e, he⟩ := Option.ne_none_iff_exists'.1 (hroot a .refl ha)
        have hd : ∀ b ∈ e.vars, Dep addr S b a := fun b hb => ⟨ha, e, he, hb⟩
        have hv : ∀ b, ∃ v, b ∈ e.vars → Ev addr S env b v := by
          intro b
          by_cases hb : b ∈ e.vars
          · obtain ⟨v, hv⟩ := ih b (hd b hb) fun c hc hf => hroot c (hc.tail (hd b hb)) hf
            exact ⟨v, fun _ => hv⟩
          · exact ⟨0, fun h => absurd h hb⟩
        choose ρ hρ using hv
        exact ⟨_, .fn a e ρ ha he hρ⟩
      · exact ⟨_, .var a ha⟩

/-- The functions without entry node are those that the file declares and never assigns. -/
theorem C136_undefined (addr : Name → ℕ) (ha : Function.Injective addr) (F : List Stm) (w : List Char)
    (hs : Syntax addr false [] [] F) (hw : Ws w) (S : Sys) (h : parseSystem addr (fileText F w) = some S) (n : Name) :
    S.root (addr n) = none ↔ n ∉ assignedNames F := by
  have hd : Describes addr F S := by
    have hp := C134_partial addr ha F w hs hw
    by_cases hn : NewNames F
    · obtain ⟨S', h1, h2⟩ := hp.1 hn
      rw [h] at h1
      simp only [Option.some.injEq] at h1
      exact h1 ▸ h2
    · rw [hp.2 hn] at h
      cases h
  rw [hd.root]
  constructor
  · intro h0 hn
    rw [List.getLast?_eq_none_iff] at h0
    clear hs h hd
    induction F with
    | nil => cases hn
    | cons s F ih =>
      cases s with
      | decl pre k items => exact ih (by simpa [assigned] using h0) hn
      | assign pre m mid txt e post =>
        rw [assignedNames] at hn
        by_cases hm : m = n
        · subst hm; simp [assigned] at h0
        · rcases List.mem_cons.1 hn with rfl | hn
          · exact hm rfl
          · exact ih (by simpa [assigned, hm] using h0) hn
  · intro h0
    rw [assigned_eq h0]
    rfl

/-- `functionf;f=f;` -/
def selfRef : List Stm := [.decl [] .funcs [item ['f']], copy ['f'] ['f']]

theorem selfRef_syntax : Syntax addr0 false [] [] selfRef :=
  ⟨ws_nil', by simp, by decide, items_ok_one (cs := ['f']) (by decide),
    ws_nil', (isName_one _ (by decide)).1, (isName_one _ (by decide)).2, ws_nil', ws_nil',
    conv_sym (mem_tab (by decide)) 0 (by omega), trivial⟩

/-- The parser accepts a function that is defined by itself; its evaluation does not end. -/
theorem C136_cycle : ∃ S, parseSystem addr0 (fileText selfRef []) = some S ∧ S.functions = [['f']] ∧
    S.root (addr0 ['f']) ≠ none ∧ ∀ env v, ¬ Ev addr0 S env (addr0 ['f']) v := by
  obtain ⟨S, h1, h2⟩ := (C134_partial addr0 addr0_inj selfRef [] selfRef_syntax ws_nil').1
    (show NewNames selfRef by unfold NewNames; decide)
  have hf : S.functions = [['f']] := h2.functions.trans (by decide)
  have hr : S.root (addr0 ['f']) = some (.var (addr0 ['f'])) := by rw [h2.root]; rfl
  refine ⟨S, h1, hf, by rw [hr]; simp, fun env v hv => ?_⟩
  have hacc := ((C136_partial addr0 S env _).1 ⟨v, hv⟩).1
  have hd : Dep addr0 S (addr0 ['f']) (addr0 ['f']) :=
    ⟨⟨['f'], by simp [Sys.allFns, hf], rfl⟩, _, hr, by simp [Node.vars]⟩
  generalize addr0 ['f'] = a at hacc hd
  induction hacc with
  | intro a _ ih => exact ih a hd hd

/-- `variable_groupx;functionf;g=x;`: the misspelt name becomes a subfunction, `f` has no entry node. -/
def misspelt : List Stm := [.decl [] .group [item ['x']], .decl [] .funcs [item ['f']], copy ['g'] ['x']]

theorem misspelt_syntax : Syntax addr0 false [] [] misspelt :=
  ⟨ws_nil', by simp, by decide, items_ok_one (cs := ['x']) (by decide),
    ws_nil', by simp, by decide, items_ok_one (cs := ['f']) (by decide),
    ws_nil', (isName_one _ (by decide)).1, (isName_one _ (by decide)).2, ws_nil', ws_nil',
    conv_sym (mem_tab (by decide)) 0 (by omega), trivial⟩

/-- Non-vacuity of `C136_undefined` and `C136_partial`: `f` has no entry node and no value, `g` has a value. -/
example : ∃ S, parseSystem addr0 (fileText misspelt []) = some S ∧ S.root (addr0 ['f']) = none ∧
    S.root (addr0 ['g']) ≠ none ∧ ∀ env, ∃ v, Ev addr0 S env (addr0 ['g']) v := by
  obtain ⟨S, h1, h2⟩ := (C134_partial addr0 addr0_inj misspelt [] misspelt_syntax ws_nil').1
    (show NewNames misspelt by unfold NewNames; decide)
  have hu := C136_undefined addr0 addr0_inj misspelt [] misspelt_syntax ws_nil' S h1
  refine ⟨S, h1, (hu _).2 (by decide), fun h => (hu _).1 h (by decide), fun env => ?_⟩
  refine ⟨_, .fn _ (.var (addr0 ['x'])) env ⟨['g'], (isFn_iff h2 _).2 (by decide), rfl⟩ (by rw [h2.root]; rfl) ?_⟩
  intro b hb
  rw [Node.vars, List.mem_singleton] at hb
  subst hb
  refine .var _ ?_
  rintro ⟨n, hn, h'⟩
  rw [isFn_iff h2] at hn
  rw [addr0_eq] at h'
  subst h'
  exact absurd hn (by decide)

end B2.Parse.SysFile
