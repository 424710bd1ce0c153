/-
Model of the argument reordering behind the constructors of the endgames,
/repo/core/include/bertini2/detail/enable_permuted_arguments.hpp, detail/typelist.hpp 53-60.

`T` is the set of C++ types, `V t` the values of type `t`. An argument is a type with a value of it.
The computation of the compiler is modelled as well: `none` means that the program is rejected.
-/
import Mathlib.Data.List.Basic

namespace B2.Infra.Permute

variable {T : Type} [DecidableEq T]

/-- `IndexByType`, enable_permuted_arguments.hpp 50-67; the `static_assert` of the second
specialisation, that the type does not occur again, is line 59. -/
def indexByType (t : T) : List T → Option ℕ
  | [] => some 0
  | u :: rest =>
    if t = u then
      match indexByType t rest with
      | some n => if n = rest.length then some 0 else none
      | none => none
    else (indexByType t rest).map (· + 1)

/-- The value of type `t` at place `i`; a value of another type cannot be returned (the return type
is `const T&`, 72-74, 82-84). -/
def valueAt {V : T → Type} (t : T) (l : List (Σ t, V t)) (i : ℕ) : Option (V t) :=
  match l[i]? with
  | some a => if h : a.1 = t then some (h ▸ a.2) else none
  | none => none

/-- `GetByIndex`, 70-88: place `j` of the default constructed values if place `i` is behind the
arguments, otherwise place `i` of the arguments. -/
def getByIndex {V : T → Type} (t : T) (i j : ℕ) (present absent : List (Σ t, V t)) :
    Option (V t) :=
  if i = present.length then valueAt t absent j else valueAt t present i

/-- `AreValidArguments<…>` in `Unpermute`, 93-101, 128-131: every argument has one of the types. -/
def valid {V : T → Type} (ts : List T) (present : List (Σ t, V t)) : Bool :=
  present.all fun a =>
    match indexByType a.1 ts with
    | some n => n != ts.length
    | none => false

/-- `Unpermute<ts…>(present…)`, 117-138, returning the tuple by value (typelist.hpp 53-60): for each
type of `ts` a value. `dflt` are the default constructed values, 108-115. -/
def unpermute {V : T → Type} (dflt : ∀ t, V t) (ts : List T) (present : List (Σ t, V t)) :
    Option (List (Σ t, V t)) :=
  if valid ts present then
    ts.mapM fun t => do
      let i ← indexByType t (present.map Sigma.fst)
      let j ← indexByType t ts
      let v ← getByIndex t i j present (ts.map fun t => ⟨t, dflt t⟩)
      pure ⟨t, v⟩
  else none

end B2.Infra.Permute
