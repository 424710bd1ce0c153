import Mathlib.Data.List.Basic

/-!
# Products of multiprecision complex numbers in the matrix library

Code: /repo/core/include/bertini2/eigen_extensions.hpp 137-147 (`abs2_impl`) and 158-180 (`conj_helper`), the parts which bertini
supplies to Eigen for `mpfr_complex`.

Simplified: a complex number is its pair of parts, all of one precision; the loops of Eigen (`dot`, `squaredNorm`, the kernels of
products with an adjoint) add from left to right.
-/

namespace B2.Infra.Herm

/-- The operations on real numbers, possibly rounded. -/
structure Arith (F : Type) where
  zero : F
  add : F → F → F
  sub : F → F → F
  mul : F → F → F

variable {F : Type}

/-- `abs2_impl<mpfr_complex>::run`, eigen_extensions.hpp 139-146. -/
def abs2 (A : Arith F) (x : F × F) : F := A.add (A.mul x.1 x.1) (A.mul x.2 x.2)

/-- Sum of two complex numbers. -/
def cadd (A : Arith F) (x y : F × F) : F × F := (A.add x.1 y.1, A.add x.2 y.2)

/-- `conj_helper<mpfr_complex, mpfr_complex, false, true>::pmul`, eigen_extensions.hpp 165-166. -/
def pmulFT (A : Arith F) (x y : F × F) : F × F :=
  (A.add (A.mul x.1 y.1) (A.mul x.2 y.2), A.sub (A.mul x.2 y.1) (A.mul x.1 y.2))

/-- `conj_helper<mpfr_complex, mpfr_complex, false, true>::pmadd`, eigen_extensions.hpp 162-163. -/
def pmaddFT (A : Arith F) (x y c : F × F) : F × F := cadd A c (pmulFT A x y)

/-- `conj_helper<mpfr_complex, mpfr_complex, true, false>::pmul`, eigen_extensions.hpp 176-177. -/
def pmulTF (A : Arith F) (x y : F × F) : F × F :=
  (A.add (A.mul x.1 y.1) (A.mul x.2 y.2), A.sub (A.mul x.1 y.2) (A.mul x.2 y.1))

/-- `conj_helper<mpfr_complex, mpfr_complex, true, false>::pmadd`, eigen_extensions.hpp 173-174. -/
def pmaddTF (A : Arith F) (x y c : F × F) : F × F := cadd A c (pmulTF A x y)

/-- An entry of `U.adjoint() * V`, and `u.dot(v)`: `pmadd` along the vectors. -/
def dotTF (A : Arith F) (u v : List (F × F)) : F × F :=
  (u.zip v).foldl (fun c p => pmaddTF A p.1 p.2 c) (A.zero, A.zero)

/-- An entry of `U * V.adjoint()`. -/
def dotFT (A : Arith F) (u v : List (F × F)) : F × F :=
  (u.zip v).foldl (fun c p => pmaddFT A p.1 p.2 c) (A.zero, A.zero)

/-- `squaredNorm()`: the sum of `abs2` of the entries. -/
def squaredNorm (A : Arith F) (u : List (F × F)) : F := u.foldl (fun c x => A.add c (abs2 A x)) A.zero

end B2.Infra.Herm
