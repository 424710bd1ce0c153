/-
C121: `Clone` makes a faithful copy of a system.
-/
import Verif.Infra.ArchiveLemmas

namespace B2.Infra.Arch

/-- No node is, through other nodes, an operand of itself. -/
def Acyclic (H : Addr → Obj) (R : List Ptr) : Prop :=
  ∃ rk : Addr → ℕ, ∀ a b, Reach H R a → some b ∈ (H a).kids → rk b < rk a

/-- `Clone` succeeds, for every sufficiently large bound on the depth, and gives a system in a new memory that satisfies `P`
together with some renaming. -/
def Clones (H : Addr → Obj) (s : Sys) (P : Sys → List Obj → (Addr → Addr) → Prop) : Prop :=
  ∃ n₀, ∀ n ≥ n₀, ∃ s' st φ, clone H n s = some (s', st) ∧ P s' st φ

/-- C121 in full: every system can be cloned, and the clone is the same system. -/
def C121_full : Prop :=
  ∀ (H : Addr → Obj) (s : Sys), Acyclic H s.roots → Clones H s fun s' st φ => SameSystem H s st s' φ

/-- Nodes whose `serialize` writes all their data. -/
def Obj.Plain : Obj → Prop
  | .diff _ _ => False
  | .lin _ _ _ => False
  | _ => True

theorem kept_plain {o : Obj} (h : o.Plain) : kept o = o := by
  cases o <;> first | rfl | exact absurd h (by simp [Obj.Plain])

theorem roots_iff (s : Sys) (a : Addr) : Fld.ptr (some a) ∈ wSys s ↔ some a ∈ s.roots := by
  have hl : ∀ l : List Ptr, Fld.ptr (some a) ∈ wList wPtr l ↔ some a ∈ l := by
    intro l; simp [wList, wPtr]
  have hll : ∀ l : List (List Ptr), Fld.ptr (some a) ∈ wList (wList wPtr) l ↔ some a ∈ l.flatten := by
    intro l; simp [wList, wPtr]
  have hN : ∀ l : List ℕ, Fld.ptr (some a) ∉ wList wNat l := by intro l; simp [wList, wNat]
  have hZ : ∀ l : List ℤ, Fld.ptr (some a) ∉ wList wInt l := by intro l; simp [wList, wInt]
  have hQ : ∀ l : List Num, Fld.ptr (some a) ∉ wList wNum l := by intro l; simp [wList, wNum]
  have hQQ : ∀ l : List (List Num), Fld.ptr (some a) ∉ wList (wList wNum) l := by intro l; simp [wList, wNum]
  have hP : ∀ l : List (Ptr × ℕ), Fld.ptr (some a) ∈ wList wPair l ↔ some a ∈ l.map Prod.fst := by
    intro l; simp [wList, wPair, wPtr, wNat, eq_comm]
  have hn : ∀ x, Fld.ptr (some a) ∉ wNat x := by intro x; simp [wNat]
  have hb : ∀ x, Fld.ptr (some a) ∉ wBool x := by intro x; simp [wBool]
  have hp : ∀ p, Fld.ptr (some a) ∈ wPtr p ↔ some a ∈ [p] := by intro p; simp [wPtr]
  simp only [wSys, wPatch, wSlp, Sys.roots, List.mem_append, hl, hll, hN, hZ, hQ, hQQ, hP, hn, hb, hp, false_or, or_false,
    or_assoc]

theorem save_total_fld (H : Addr → Obj) (n : ℕ) (fs : List Fld)
    (h : ∀ p, Fld.ptr p ∈ fs → ∀ seen, ∃ r, savePtr H n p seen = some r) :
    ∀ seen, ∃ r, saveFlds (savePtr H n) fs seen = some r := by
  induction fs with
  | nil => intro seen; exact ⟨_, rfl⟩
  | cons f fs ih =>
    intro seen
    have ih' := ih fun p hp => h p (by simp [hp])
    cases f with
    | tok t =>
      obtain ⟨r, hr⟩ := ih' seen
      exact ⟨(t :: r.1, r.2), by simp [saveFlds, hr]⟩
    | ptr p =>
      obtain ⟨r0, hr0⟩ := h p (by simp) seen
      obtain ⟨r, hr⟩ := ih' r0.2
      exact ⟨(r0.1 ++ r.1, r.2), by simp [saveFlds, hr0, hr]⟩

theorem save_total (H : Addr → Obj) (R : Addr → Prop) (rk : Addr → ℕ)
    (hR : ∀ a b, R a → some b ∈ (H a).kids → R b ∧ rk b < rk a) :
    ∀ n p seen, 1 ≤ n → (∀ a, p = some a → R a ∧ rk a + 1 < n) → ∃ r, savePtr H n p seen = some r := by
  intro n
  induction n with
  | zero => intro p seen h; omega
  | succ n ih =>
    intro p seen _ hp
    cases p with
    | none => exact ⟨_, rfl⟩
    | some a =>
      rw [savePtr]
      by_cases ha : a ∈ seen
      · rw [if_pos ha]; exact ⟨_, rfl⟩
      · rw [if_neg ha]
        obtain ⟨h1, h2⟩ := hp a rfl
        obtain ⟨r, hr⟩ := save_total_fld H n (fields (H a)) (by
          intro q hq sn
          refine ih q sn (by omega) ?_
          rintro b rfl
          have hb : some b ∈ (H a).kids := by
            revert hq
            cases H a <;> simp [fields, wList, wStr, wInt, wNat, wNum, wRat, wPtr, wBool, Obj.kids]
          obtain ⟨k1, k2⟩ := hR a b h1 hb
          exact ⟨k1, by omega⟩) (seen ++ [a])
        exact ⟨_, by rw [hr]; rfl⟩

theorem roots_bound (rk : Addr → ℕ) (l : List Ptr) : ∃ N, ∀ a, some a ∈ l → rk a ≤ N := by
  induction l with
  | nil => exact ⟨0, by simp⟩
  | cons p l ih =>
    obtain ⟨N, hN⟩ := ih
    cases p with
    | none => exact ⟨N, by simpa using hN⟩
    | some b =>
      refine ⟨max N (rk b), ?_⟩
      intro a ha
      simp only [List.mem_cons, Option.some.injEq] at ha
      rcases ha with rfl | ha
      · exact le_max_right _ _
      · exact le_trans (hN a ha) (le_max_left _ _)

/-- Whatever is written and read back by matching programs is the same up to the names of nodes, if all nodes write all their
data. -/
theorem archive_same {X : Type} (w : X → List Fld) (r : Rd X) (m : (Addr → Addr) → X → X) (R : List Ptr) (hc : Codec w r)
    (hm : ∀ φ x, (w x).map (Fld.map φ) = w (m φ x)) (H : Addr → Obj) (x : X)
    (hR : ∀ a, Fld.ptr (some a) ∈ w x ↔ some a ∈ R) (hac : Acyclic H R) (hpl : ∀ a, Reach H R a → (H a).Plain) :
    ∃ n₀, ∀ n ≥ n₀, ∃ st φ, archive w r H n x = some (m φ x, st) ∧ SameNodes H R st φ := by
  obtain ⟨rk, hrk⟩ := hac
  obtain ⟨N, hN⟩ := roots_bound rk R
  refine ⟨N + 2, fun n hn => ?_⟩
  have htot : ∀ p seen, Fld.ptr p ∈ w x → ∃ r, savePtr H n p seen = some r := by
    intro p seen hp
    refine save_total H (Reach H R) rk (fun a b h1 h2 => ⟨.kid h1 h2, hrk a b h1 h2⟩) n p seen (by omega) ?_
    rintro a rfl
    have := (hR a).1 hp
    exact ⟨.root this, by have := hN a this; omega⟩
  obtain ⟨⟨ts, seen⟩, hsave⟩ := save_total_fld H n (w x) (fun p hp sn => htot p sn hp) []
  have F := fldOk H n (ptrOk H n) _ _ _ _ hsave
  have hfeed : feed r ((w x).map (Fld.map seen.idxOf)) = some (m seen.idxOf x, []) := by
    have := hc (m seen.idxOf x) []
    rwa [List.append_nil, ← hm] at this
  obtain ⟨st, e1, e2, -, e4⟩ := F.load List.nodup_nil r _ [] [] rfl hfeed
  have hreach : ∀ a, Reach H R a → a ∈ seen := by
    intro a ha
    induction ha with
    | root h => exact F.mem _ ((hR _).2 h)
    | @kid a b h1 h2 ih =>
      refine F.kids a ih (by simp) b (kids_fields ?_)
      rwa [kept_plain (hpl a h1)]
  refine ⟨st, seen.idxOf, ?_, ?_, ?_⟩
  · rw [List.append_nil] at e1
    simp only [archive, hsave, e1]
  · intro a b ha _ h
    exact (List.idxOf_inj (hreach a ha)).1 h
  · intro a ha
    rw [e4 a (hreach a ha) (by simp), kept_plain (hpl a ha)]

/-- C121: a system without `LinearProduct` and `Differential` nodes is cloned faithfully: the clone consists of new nodes, is the
same system up to their names, and has the same sharing.  Missing: systems with linear products (systems made from a
multihomogeneous start system) and with differentials (systems already differentiated by Jacobian nodes), for which this is
false. -/
theorem C121_partial (H : Addr → Obj) (s : Sys) (hac : Acyclic H s.roots)
    (hpl : ∀ a, Reach H s.roots a → (H a).Plain) :
    Clones H s fun s' st φ => SameSystem H s st s' φ := by
  obtain ⟨n₀, h⟩ := archive_same wSys rSys Sys.map s.roots cSys wSys_map H s (roots_iff s) hac hpl
  refine ⟨n₀, fun n hn => ?_⟩
  obtain ⟨st, φ, h1, h2⟩ := h n hn
  exact ⟨_, st, φ, h1, rfl, h2⟩

/-- Corresponding nodes have the same values, for every interpretation of the functions and all values of
the variables. -/
theorem value_same {H : Addr → Obj} {R : List Ptr} {st : List Obj} {φ : Addr → Addr} (h : SameNodes H R st φ)
    (I : Interp) (ρ ρ' : Addr → ℂ) (hρ : ∀ a, Reach H R a → ρ' (φ a) = ρ a) (dv : Ptr)
    (hdv : ∀ a, dv = some a → Reach H R a) (n : ℕ) :
    ∀ p : Ptr, (∀ a, p = some a → Reach H R a) →
      value I (fun a => st[a]?) ρ' (dv.map φ) n (p.map φ) = value I (fun a => some (H a)) ρ dv n p := by
  induction n with
  | zero => intro p _; rfl
  | succ n ih =>
    intro p hp
    cases p with
    | none => rfl
    | some a =>
      have ha := hp a rfl
      have hobj := h.2 a ha
      have hk : ∀ q, q ∈ (H a).kids → ∀ b, q = some b → Reach H R b := by
        rintro q hq b rfl
        exact .kid ha hq
      have hm : ∀ l : List Ptr, (∀ q ∈ l, q ∈ (H a).kids) →
          (l.map (Option.map φ)).mapM (value I (fun a => st[a]?) ρ' (dv.map φ) n) =
            l.mapM (value I (fun a => some (H a)) ρ dv n) := by
        intro l hl
        induction l with
        | nil => rfl
        | cons q l ihl =>
          simp only [List.map_cons, List.mapM_cons, ih q (hk q (hl q (by simp))), ihl fun q hq => hl q (by simp [hq])]
      have hq : ∀ q, q ∈ (H a).kids → value I (fun a => st[a]?) ρ' (dv.map φ) n (q.map φ) =
          value I (fun a => some (H a)) ρ dv n q := fun q hq => ih q (hk q hq)
      simp only [Option.map_some, value, hobj]
      cases ho : H a with
      | var name => simp [Obj.map, hρ a ha]
      | int z => simp [Obj.map]
      | float v p => simp [Obj.map]
      | rat x y => simp [Obj.map]
      | special b m => simp [Obj.map]
      | sum ops sg => simp only [Obj.map]; rw [hm ops (by simp [ho, Obj.kids])]
      | mult ops sg => simp only [Obj.map]; rw [hm ops (by simp [ho, Obj.kids])]
      | pow x y => simp only [Obj.map]; rw [hq x (by simp [ho, Obj.kids]), hq y (by simp [ho, Obj.kids])]
      | ipow x k => simp only [Obj.map]; rw [hq x (by simp [ho, Obj.kids])]
      | un f x => simp only [Obj.map]; rw [hq x (by simp [ho, Obj.kids])]
      | fn m x => simp only [Obj.map]; rw [hq x (by simp [ho, Obj.kids])]
      | jac m x => simp only [Obj.map]; rw [hq x (by simp [ho, Obj.kids])]
      | lin vs w rows =>
        simp only [Obj.map]
        rw [hm vs (by intro q hq'; simp [ho, Obj.kids, hq']), hq w (by simp [ho, Obj.kids])]
      | diff m v =>
        simp only [Obj.map]
        have : v.map φ = dv.map φ ↔ v = dv := by
          constructor
          · intro e
            cases v with
            | none => cases dv with
              | none => rfl
              | some d => simp at e
            | some v =>
              cases dv with
              | none => simp at e
              | some d =>
                simp only [Option.map_some, Option.some.injEq] at e
                rw [h.1 v d (hk (some v) (by simp [ho, Obj.kids]) v rfl) (hdv d rfl) e]
          · rintro rfl; rfl
        simp only [this]

/-- C121 for values, in full: the functions (and all other nodes) of the clone have the same values as those of the original,
whatever the values of the variables, including derivatives with respect to a variable of the system. -/
def C121_values_full : Prop :=
  ∀ (H : Addr → Obj) (s : Sys), Acyclic H s.roots → Clones H s fun s' st φ =>
    s'.fns = s.fns.map (Option.map φ) ∧ s'.jac = s.jac.map (Option.map φ) ∧
    ∀ (I : Interp) (ρ ρ' : Addr → ℂ) (dv : Ptr), (∀ a, Reach H s.roots a → ρ' (φ a) = ρ a) →
      (∀ a, dv = some a → Reach H s.roots a) → ∀ (k : ℕ) (p : Ptr), p ∈ s.roots →
      value I (fun a => st[a]?) ρ' (dv.map φ) k (p.map φ) = value I (fun a => some (H a)) ρ dv k p

/-- C121 for values, under the hypothesis of `C121_partial`. -/
theorem C121_values_partial (H : Addr → Obj) (s : Sys) (hac : Acyclic H s.roots) (hpl : ∀ a, Reach H s.roots a → (H a).Plain) :
    Clones H s fun s' st φ =>
    s'.fns = s.fns.map (Option.map φ) ∧ s'.jac = s.jac.map (Option.map φ) ∧
    ∀ (I : Interp) (ρ ρ' : Addr → ℂ) (dv : Ptr), (∀ a, Reach H s.roots a → ρ' (φ a) = ρ a) →
      (∀ a, dv = some a → Reach H s.roots a) → ∀ (k : ℕ) (p : Ptr), p ∈ s.roots →
      value I (fun a => st[a]?) ρ' (dv.map φ) k (p.map φ) = value I (fun a => some (H a)) ρ dv k p := by
  obtain ⟨n₀, h⟩ := C121_partial H s hac hpl
  refine ⟨n₀, fun n hn => ?_⟩
  obtain ⟨s', st, φ, h1, h2⟩ := h n hn
  refine ⟨s', st, φ, h1, by rw [h2.1]; rfl, by rw [h2.1]; rfl, ?_⟩
  intro I ρ ρ' dv hρ hdv k p hp
  refine value_same h2.2 I ρ ρ' hρ dv hdv k p ?_
  rintro a rfl
  exact .root hp

/-! ### Examples -/

/-- The rest of a system with one group of variables. -/
def sysOf (group fns jac : List Ptr) : Sys where
  ungrouped := []
  groups := [group]
  homGroups := []
  homVars := []
  havePath := false
  path := none
  implicitPars := []
  explicitPars := []
  constSubs := []
  subs := []
  fns := fns
  patch := ⟨16, [], [], [], []⟩
  isPatched := false
  uniform := false
  evalMethod := 0
  derivMethod := 0
  autoSimplify := true
  prec := 16
  isDiff := !jac.isEmpty
  jac := jac
  spaceDerivs := []
  timeDerivs := []
  slp := ⟨16, false, 0, 0, 0, 0, 0, 0, 0, 0, 0, [], [], [], [], [], false⟩
  timeOrder := [0]
  haveOrdering := false
  ordering := []

/-- `f = (x+1)·(x+1)` with both factors the same node, and `g = x+1`. -/
def Hshare : Addr → Obj
  | 0 => .var "x"
  | 1 => .int 1
  | 2 => .sum [some 0, some 1] [true, true]
  | 3 => .mult [some 2, some 2] [true, true]
  | 4 => .fn "f" (some 3)
  | 5 => .fn "g" (some 2)
  | _ => .int 0

theorem hshare_rank (a b : Addr) (h : some b ∈ (Hshare a).kids) : b < a := by
  match a with
  | 0 | 1 => simp [Hshare, Obj.kids] at h
  | 2 => simp [Hshare, Obj.kids] at h; first | (rcases h with rfl | rfl <;> decide) | (subst h; decide)
  | 3 => simp [Hshare, Obj.kids] at h; first | (rcases h with rfl | rfl <;> decide) | (subst h; decide)
  | 4 => simp [Hshare, Obj.kids] at h; first | (rcases h with rfl | rfl <;> decide) | (subst h; decide)
  | 5 => simp [Hshare, Obj.kids] at h; first | (rcases h with rfl | rfl <;> decide) | (subst h; decide)
  | _ + 6 => simp [Hshare, Obj.kids] at h

theorem hshare_plain (a : Addr) : (Hshare a).Plain := by
  match a with
  | 0 | 1 | 2 | 3 | 4 | 5 | _ + 6 => trivial

/-- The hypotheses of the theorems hold for a system with shared nodes. -/
example : Clones Hshare (sysOf [some 0] [some 4, some 5] []) fun s' st φ =>
    SameSystem Hshare (sysOf [some 0] [some 4, some 5] []) st s' φ :=
  C121_partial _ _ ⟨id, fun a b _ h => hshare_rank a b h⟩ fun a _ => hshare_plain a

/-- Its clone: six new nodes, with one sum used three times. -/
example : (clone Hshare 10 (sysOf [some 0] [some 4, some 5] [])).map (fun r => (r.1.fns, r.2)) =
    some ([some 1, some 5], [.var "x", .fn "f" (some 2), .mult [some 3, some 3] [true, true],
      .sum [some 0, some 4] [true, true], .int 1, .fn "g" (some 3)]) := by decide +kernel

/-- `f = x` with its Jacobian, whose entry is the differential of `x`. -/
def Hdiff : Addr → Obj
  | 0 => .var "x"
  | 1 => .diff "dx" (some 0)
  | 2 => .jac "J" (some 1)
  | 3 => .fn "f" (some 0)
  | _ => .int 0

theorem hdiff_rank (a b : Addr) (h : some b ∈ (Hdiff a).kids) : b < a := by
  match a with
  | 0 => simp [Hdiff, Obj.kids] at h
  | 1 => simp [Hdiff, Obj.kids] at h; first | (rcases h with rfl | rfl <;> decide) | (subst h; decide)
  | 2 => simp [Hdiff, Obj.kids] at h; first | (rcases h with rfl | rfl <;> decide) | (subst h; decide)
  | 3 => simp [Hdiff, Obj.kids] at h; first | (rcases h with rfl | rfl <;> decide) | (subst h; decide)
  | _ + 4 => simp [Hdiff, Obj.kids] at h

def Sdiff : Sys := sysOf [some 0] [some 3] [some 2]

theorem clone_hdiff (n : ℕ) : clone Hdiff (n + 10) Sdiff =
    some (sysOf [some 0] [some 1] [some 2], [.var "x", .fn "f" (some 0), .jac "J" (some 3), .diff "dx" none]) := rfl

/-- C121 does not hold for a system that was differentiated: the differential in the clone belongs to no variable. -/
theorem C121_refuted : ¬ C121_full := by
  intro h
  obtain ⟨n₀, h⟩ := h Hdiff Sdiff ⟨id, fun a b _ h => hdiff_rank a b h⟩
  obtain ⟨s', st, φ, h1, h2, h3, h4⟩ := h (n₀ + 10) (by omega)
  rw [clone_hdiff] at h1
  simp only [Option.some.injEq, Prod.mk.injEq] at h1
  obtain ⟨rfl, rfl⟩ := h1
  have r2 : Reach Hdiff Sdiff.roots 2 := .root (by decide)
  have r1 : Reach Hdiff Sdiff.roots 1 := .kid r2 (by decide)
  have := h4 1 r1
  simp only [Hdiff, Obj.map, Option.map_some] at this
  have hm := List.mem_of_getElem? this
  simp at hm

/-- C121 for values does not hold either: the derivative of `x` with respect to `x` is 1 in the original and 0 in the clone. -/
theorem C121_values_refuted : ¬ C121_values_full := by
  intro h
  obtain ⟨n₀, h⟩ := h Hdiff Sdiff ⟨id, fun a b _ h => hdiff_rank a b h⟩
  obtain ⟨s', st, φ, h1, h2, h3, h4⟩ := h (n₀ + 10) (by omega)
  rw [clone_hdiff] at h1
  simp only [Option.some.injEq, Prod.mk.injEq] at h1
  obtain ⟨rfl, rfl⟩ := h1
  have r0 : Reach Hdiff Sdiff.roots 0 := .root (by decide)
  have e2 : φ 2 = 2 := by
    have : (some (φ 2) : Ptr) = some 2 := by simpa [sysOf, Sdiff] using h3.symm
    simpa using this
  have := h4 ⟨fun _ z => z, fun z _ => z, 0, 0⟩ (fun _ => 0) (fun _ => 0) (some 0) (fun _ _ => rfl)
    (by rintro a ⟨⟩; exact r0) 2 (some 2) (by decide)
  simp [value, Hdiff, e2] at this

/-- A function that is a linear product `(2x + 3)`. -/
def Hlin : Addr → Obj
  | 0 => .var "x"
  | 1 => .lin [some 0] (some 2) [[(2, 0), (3, 0)]]
  | 2 => .int 1
  | 3 => .fn "f" (some 1)
  | _ => .int 0

/-- The second reason: of a linear product nothing remains, and the function cannot be evaluated any more. -/
theorem C121_linear_lost (n : ℕ) : ∃ s' st, clone Hlin (n + 10) (sysOf [some 0] [some 3] []) = some (s', st) ∧
    s'.fns = [some 1] ∧
    ∀ I ρ k, value I (fun a => st[a]?) ρ none k (some 1) = none ∧
      value I (fun a => some (Hlin a)) ρ none (k + 3) (some 3) = some (2 * ρ 0 + 3) := by
  refine ⟨sysOf [some 0] [some 1] [], [.var "x", .fn "f" (some 2), .lin [] none []], rfl, rfl, ?_⟩
  intro I ρ k
  constructor
  · match k with
    | 0 => rfl
    | 1 => rfl
    | 2 => simp [value]
    | k + 3 => simp [value]
  · have h2 : toC (2, 0) = 2 := by apply Complex.ext <;> simp [toC]
    have h3 : toC (3, 0) = 3 := by apply Complex.ext <;> simp [toC]
    simp [value, Hlin, rowVal, h2, h3]

end B2.Infra.Arch
