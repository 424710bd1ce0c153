import Mathlib.Algebra.Field.Basic
import Mathlib.Data.List.Basic

/-!
# Matrix helpers of `core/include/bertini2/eigen_extensions.hpp`

`IsEmpty`, `Precision`, `PrecisionRequireUniform` (lines 274-338) and `KahanMatrix` (lines 449-495).

Simplified: a matrix is its two sizes and a function giving the entry at a row and a column, of which only the places within
the sizes are ever looked at; `NumberType` is a field with a function `sqrt` (no rounding).
-/

namespace B2.Infra.Mat

/-- A matrix. -/
structure Mat (α : Type) where
  rows : ℕ
  cols : ℕ
  at' : ℕ → ℕ → α

/-- `A(i,j) = v`. -/
def upd {α : Type} (A : ℕ → ℕ → α) (i j : ℕ) (v : α) : ℕ → ℕ → α :=
  fun i' j' => if i' = i ∧ j' = j then v else A i' j'

/-- `for (k = a; k < b; ++k) s = f(k, s)`. -/
def loop {σ : Type} (a b : ℕ) (f : ℕ → σ → σ) (s : σ) : σ := (List.range' a (b - a)).foldl (fun s k => f k s) s

/-! ### Precision -/

/-- What may happen besides a result: an exception, or an access outside the matrix (`eigen_assert`, undefined when assertions
are off). -/
inductive Fail
  | empty
  | nonUniform (a b row col : ℕ)
  | outside
deriving DecidableEq

/-- `IsEmpty`, `eigen_extensions.hpp:277-282`. -/
def isEmpty {α : Type} (v : Mat α) : Bool := v.rows == 0 || v.cols == 0

/-- `v(i,j)`. -/
def Mat.get {α : Type} (v : Mat α) (i j : ℕ) : Except Fail α :=
  if i < v.rows ∧ j < v.cols then .ok (v.at' i j) else .error .outside

/-- `Precision(v)`, `eigen_extensions.hpp:290-298`; `prec` is the precision of a number. -/
def precision {α : Type} (prec : α → ℕ) (v : Mat α) : Except Fail ℕ :=
  if isEmpty v then .error .empty
  else do
    let x ← v.get 0 0
    return prec x

/-- The inner loop of `PrecisionRequireUniform`, `eigen_extensions.hpp:312-320`, over the rows from `jj` on (`n` of them). -/
def scanRows {α : Type} (prec : α → ℕ) (v : Mat α) (a ii : ℕ) : ℕ → ℕ → Except Fail Unit
  | _, 0 => .ok ()
  | jj, n + 1 => do
      let x ← v.get jj ii
      if a ≠ prec x then .error (.nonUniform a (prec x) jj ii) else scanRows prec v a ii (jj + 1) n

/-- The outer loop, `eigen_extensions.hpp:311`, over the columns from `ii` on (`n` of them). -/
def scanCols {α : Type} (prec : α → ℕ) (v : Mat α) (a : ℕ) : ℕ → ℕ → Except Fail Unit
  | _, 0 => .ok ()
  | ii, n + 1 => do
      scanRows prec v a ii 0 v.rows
      scanCols prec v a (ii + 1) n

/-- `PrecisionRequireUniform`, `eigen_extensions.hpp:307-322`. -/
def requireUniform {α : Type} (prec : α → ℕ) (v : Mat α) : Except Fail ℕ := do
  let x ← v.get 0 0
  scanCols prec v (prec x) 0 v.cols
  return prec x

/-- `Precision(v, prec)`, `eigen_extensions.hpp:331-338`; `setPrec` changes the precision of one number. -/
def setPrecision {α : Type} (setPrec : ℕ → α → α) (v : Mat α) (p : ℕ) : Mat α :=
  { v with at' := loop 0 v.cols (fun ii A => loop 0 v.rows (fun jj A => upd A jj ii (setPrec p (A jj ii))) A) v.at' }

/-! ### The Kahan matrix -/

variable {K : Type} [Field K]

/-- The first double loop of `KahanMatrix`, `eigen_extensions.hpp:460-467`. -/
def kahanFill (n : ℕ) (c : K) (A : ℕ → ℕ → K) : ℕ → ℕ → K :=
  loop 0 n (fun ii A => loop ii n (fun jj A => upd A ii jj (-c * 1)) (loop 0 ii (fun jj A => upd A ii jj 0) A)) A

/-- The diagonal, `eigen_extensions.hpp:470-472`. -/
def kahanDiag (n : ℕ) (c : K) (A : ℕ → ℕ → K) : ℕ → ℕ → K :=
  loop 0 n (fun ii A => upd A ii ii (A ii ii + (1 + c))) A

/-- Scaling the rows, `eigen_extensions.hpp:474-479`; the state is the matrix and `scale`. -/
def kahanRows (n : ℕ) (s : K) (A : ℕ → ℕ → K) : (ℕ → ℕ → K) × K :=
  loop 0 n (fun jj st => (loop 0 n (fun kk A => upd A jj kk (A jj kk * st.2)) st.1, st.2 * s)) (A, 1)

/-- Scaling the columns, `eigen_extensions.hpp:481-485`. -/
def kahanCols (n : ℕ) (A : ℕ → ℕ → K) : ℕ → ℕ → K :=
  loop 0 n (fun jj A => loop 0 n (fun kk A => upd A kk jj (A kk jj / ((jj : K) + 1))) A) A

/-- `KahanMatrix`, `eigen_extensions.hpp:449-487`; `A0` is what the new matrix contains. -/
def kahan (sqrt : K → K) (n : ℕ) (c : K) (A0 : ℕ → ℕ → K) : Mat K :=
  let s := sqrt ((1 - c) * (1 + c))
  ⟨n, n, kahanCols n (kahanRows n s (kahanDiag n c (kahanFill n c A0))).1⟩

end B2.Infra.Mat
