/-
Specification for the copying of systems: what it means that two systems, each in its own memory, are the same up to the
names of the memory cells, and what nodes in memory evaluate to.  Independent of the archive.
-/
import Verif.Infra.Archive
import Mathlib.Data.Complex.Basic
import Mathlib.Algebra.BigOperators.Group.List.Basic

namespace B2.Infra.Arch

/-- Renaming the addresses in an object. -/
def Obj.map (φ : Addr → Addr) : Obj → Obj
  | .sum ops s => .sum (ops.map (Option.map φ)) s
  | .mult ops s => .mult (ops.map (Option.map φ)) s
  | .pow a b => .pow (a.map φ) (b.map φ)
  | .ipow a k => .ipow (a.map φ) k
  | .un f a => .un f (a.map φ)
  | .fn s a => .fn s (a.map φ)
  | .jac s a => .jac s (a.map φ)
  | .diff s a => .diff s (a.map φ)
  | .lin vs h rows => .lin (vs.map (Option.map φ)) (h.map φ) rows
  | o => o

/-- The pointers held by an object. -/
def Obj.kids : Obj → List Ptr
  | .sum ops _ => ops
  | .mult ops _ => ops
  | .pow a b => [a, b]
  | .ipow a _ => [a]
  | .un _ a => [a]
  | .fn _ a => [a]
  | .jac _ a => [a]
  | .diff _ a => [a]
  | .lin vs h _ => vs ++ [h]
  | _ => []

/-- Renaming the addresses in a system. -/
def Sys.map (φ : Addr → Addr) (s : Sys) : Sys :=
  let m := List.map (Option.map φ)
  { s with
    ungrouped := m s.ungrouped, groups := s.groups.map m, homGroups := s.homGroups.map m, homVars := m s.homVars,
    path := s.path.map φ, implicitPars := m s.implicitPars, explicitPars := m s.explicitPars, constSubs := m s.constSubs,
    subs := m s.subs, fns := m s.fns, jac := m s.jac, spaceDerivs := m s.spaceDerivs, timeDerivs := m s.timeDerivs,
    slp := { s.slp with nums := s.slp.nums.map fun x => (x.1.map φ, x.2) }, ordering := m s.ordering }

/-- The pointers held by a system. -/
def Sys.roots (s : Sys) : List Ptr :=
  s.ungrouped ++ s.groups.flatten ++ s.homGroups.flatten ++ s.homVars ++ [s.path] ++ s.implicitPars ++ s.explicitPars ++
    s.constSubs ++ s.subs ++ s.fns ++ s.jac ++ s.spaceDerivs ++ s.timeDerivs ++ s.slp.nums.map Prod.fst ++ s.ordering

/-- The nodes in the memory `H` that can be reached from the pointers `R`. -/
inductive Reach (H : Addr → Obj) (R : List Ptr) : Addr → Prop
  | root {a} : some a ∈ R → Reach H R a
  | kid {a b} : Reach H R a → some b ∈ (H a).kids → Reach H R b

/-- The nodes reached from `R` in the memory `H` are also in the memory `st`, under the names given by `φ`: different nodes
remain different (so that sharing is the same) and corresponding nodes have the same class and the same data. -/
def SameNodes (H : Addr → Obj) (R : List Ptr) (st : List Obj) (φ : Addr → Addr) : Prop :=
  (∀ a b, Reach H R a → Reach H R b → φ a = φ b → a = b) ∧ ∀ a, Reach H R a → st[φ a]? = some ((H a).map φ)

/-- The system `s'`, whose nodes are in the memory `st`, is the same as `s` in `H`, up to the names of nodes: all members of the
system agree and the nodes are the same. -/
def SameSystem (H : Addr → Obj) (s : Sys) (st : List Obj) (s' : Sys) (φ : Addr → Addr) : Prop :=
  s' = s.map φ ∧ SameNodes H s.roots st φ

/-- Meanings of the parts that are not field operations. -/
structure Interp where
  un : Un → ℂ → ℂ
  pow : ℂ → ℂ → ℂ
  pi : ℂ
  e : ℂ

/-- `true` adds (multiplies), `false` subtracts (divides). -/
noncomputable def foldSigns (f g : ℂ → ℂ → ℂ) (z : ℂ) (xs : List (ℂ × Bool)) : ℂ :=
  xs.foldl (fun acc x => if x.2 then f acc x.1 else g acc x.1) z

/-- A complex number out of its parts. -/
noncomputable def toC (v : Num) : ℂ := ⟨(v.1 : ℝ), (v.2 : ℝ)⟩

/-- Value of one factor of a linear product: coefficients of the variables, then that of the homogenizing node. -/
noncomputable def rowVal (xs : List ℂ) (h : ℂ) (row : List Num) : ℂ :=
  ((row.zip (xs ++ [h])).map fun p => toC p.1 * p.2).sum

/-- The value of a node in the memory `H` when the variables have the values `ρ` and differentials are taken with respect to
`dv`; `none` for a null pointer (or if the depth bound is too small). -/
noncomputable def value (I : Interp) (H : Addr → Option Obj) (ρ : Addr → ℂ) (dv : Ptr) : ℕ → Ptr → Option ℂ
  | 0, _ => none
  | _ + 1, none => none
  | n + 1, some a =>
    match H a with
    | none => none
    | some (.var _) => some (ρ a)
    | some (.int z) => some z
    | some (.float v _) => some (toC v)
    | some (.rat re im) => some (toC (re, im))
    | some (.special b _) => some (if b then I.pi else I.e)
    | some (.sum ops s) => (ops.mapM (value I H ρ dv n)).map fun xs => foldSigns (· + ·) (· - ·) 0 (xs.zip s)
    | some (.mult ops s) => (ops.mapM (value I H ρ dv n)).map fun xs => foldSigns (· * ·) (· / ·) 1 (xs.zip s)
    | some (.pow x y) => (value I H ρ dv n x).bind fun u => (value I H ρ dv n y).map fun v => I.pow u v
    | some (.ipow x k) => (value I H ρ dv n x).map fun u => u ^ k
    | some (.un f x) => (value I H ρ dv n x).map (I.un f)
    | some (.fn _ x) => value I H ρ dv n x
    | some (.jac _ x) => value I H ρ dv n x
    | some (.diff _ v) => some (if v = dv then 1 else 0)
    | some (.lin vs h rows) =>
      (vs.mapM (value I H ρ dv n)).bind fun xs =>
        (value I H ρ dv n h).map fun u => (rows.map (rowVal xs u)).prod

end B2.Infra.Arch
