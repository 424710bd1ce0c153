import Verif.Parse.Numbers

/-!
# Printed results of a solve

Code: `algorithm::output::Classic`, /repo/core/include/bertini2/nag_algorithms/output.hpp lines 56-221; the generators of
/repo/core/include/bertini2/io/generators.hpp lines 157-190; codes are printed as integers,
/repo/core/include/bertini2/common/stream_enum.hpp lines 48-52.

Simplifications: the solver is one that works with multiple precision (points and times are `mpfr_complex`; the points of
a double precision solver go through `karma::real_generator` of the library).  The texts of the systems are arbitrary
(`System::operator<<`).  The stream is a `std::ostream` with its default flags except for its precision `p`, 6 by default.
`operator<<` for `double` is modelled from the standard (`%.{p}g`), with ties rounded to even.
-/

namespace B2.Alg.Report

open B2.Parse B2.Parse.Numbers

/-- The digits rounded to `p` of them, with the exponent. -/
def roundTo (p : ℕ) (ds : List Char) (e : ℤ) : List Char × ℤ :=
  if ds.length ≤ p then (ds, e)
  else
    let n := natOf (ds.take p)
    let r := natOf (ds.drop p)
    let h := 10 ^ (ds.length - p)
    let n' := if h < 2 * r ∨ (2 * r = h ∧ n % 2 = 1) then n + 1 else n
    if n' = 10 ^ p then ('1' :: List.replicate (p - 1) '0', e + 1) else (showNat n', e)

/-- A `double`: a number in exact decimal form, negative zero, an infinity, not a number. -/
inductive Dbl
  | fin (x : Dec)
  | negZero
  | inf (neg : Bool)
  | nan (neg : Bool)
  deriving DecidableEq

/-- `operator<<` for `double` on a stream of precision `p`, the conversion `%.{p}g`; used on output.hpp lines 176-178,
183-184, 202-206. -/
def showDbl (p : ℕ) : Dbl → List Char
  | .fin .zero => ['0']
  | .fin (.num neg ds e) => fmt p neg (roundTo p ds e).1 (roundTo p ds e).2
  | .negZero => ['-', '0']
  | .inf neg => if neg then ['-', 'i', 'n', 'f'] else ['i', 'n', 'f']
  | .nan neg => if neg then ['-', 'n', 'a', 'n'] else ['n', 'a', 'n']

/-- What is printed of a path: the fields of `SolutionMetaData`, zero_dim_solve.hpp lines 110-143, that output.hpp uses;
`pre` and `post` are the two success codes as integers (`NeverStarted` is -1, common/config.hpp lines 45-64); `pt` and
`prec` are the solution and its precision. -/
structure Rec where
  pathIndex : ℕ
  solIndex : ℕ
  cond : Dbl
  fres : Dbl
  nres : Dbl
  finalTime : Dec × Dec
  maxPrec : ℕ
  precTime : Dec × Dec
  acc : Dbl
  accUser : Dbl
  cycle : ℕ
  mult : ℤ
  pre : ℤ
  post : ℤ
  prec : ℕ
  pt : List (Dec × Dec)

/-- `Classic::generate` for vectors, generators.hpp lines 177-190: one coordinate a line. -/
def endPoint (pt : List (Dec × Dec)) : List Char := pt.flatMap fun z => genComplex z.1 z.2 ++ ['\n']

/-- `EndPointMDFull`, output.hpp lines 169-192, with `additional = "\n"`. -/
def mdFull (p : ℕ) (r : Rec) : List Char :=
  showNat r.pathIndex ++ '\n' :: (showNat r.solIndex ++ '\n' :: (showDbl p r.cond ++ '\n' :: (showDbl p r.fres ++ '\n' ::
    (showDbl p r.nres ++ '\n' :: (genComplex r.finalTime.1 r.finalTime.2 ++ '\n' :: (showNat r.maxPrec ++ '\n' ::
      (genComplex r.precTime.1 r.precTime.2 ++ '\n' :: (showDbl p r.acc ++ '\n' :: (showDbl p r.accUser ++ '\n' ::
        (showNat r.cycle ++ '\n' :: (showInt r.mult ++ '\n' :: (showInt r.pre ++ ' ' :: (showInt r.post ++ '\n' ::
          ['\n'])))))))))))))

/-- `EndPointMDRaw`, output.hpp lines 196-215, with `additional = "\n\n"`. -/
def mdRaw (p : ℕ) (r : Rec) : List Char :=
  showNat r.pathIndex ++ '\n' :: (showNat r.prec ++ '\n' :: (endPoint r.pt ++ (showDbl p r.fres ++ '\n' ::
    (showDbl p r.cond ++ '\n' :: (showDbl p r.nres ++ '\n' :: (genComplex r.finalTime.1 r.finalTime.2 ++ '\n' ::
      (showDbl p r.acc ++ '\n' :: (genComplex r.precTime.1 r.precTime.2 ++ '\n' :: (showNat r.cycle ++ '\n' ::
        (showInt r.post ++ '\n' :: ['\n', '\n']))))))))))

/-- `RawData`, output.hpp lines 98-114: number of variables, the paths in order, the target system.  `recs` are the paths,
`n` is `TargetSystem().NumVariables()`. -/
def rawData (p n : ℕ) (recs : List Rec) (target : List Char) : List Char :=
  showNat n ++ '\n' :: '\n' ::
    ((recs.flatMap fun r => if r.post = -1 then [] else mdRaw p r) ++ '\n' :: '\n' :: (target ++ ['\n', '\n']))

/-- `MainData`, output.hpp lines 70-95: number of variables, their names, the paths in order, the three systems. -/
def mainData (p n : ℕ) (vars : List (List Char)) (recs : List Rec) (target start hom : List Char) : List Char :=
  showNat n ++ '\n' :: ((vars.flatMap fun v => v ++ [' ']) ++ '\n' :: '\n' ::
    ((recs.flatMap fun r => if r.post = -1 then [] else mdFull p r ++ (endPoint r.pt ++ ['\n', '\n'])) ++ '\n' :: '\n' ::
      (target ++ '\n' :: '\n' :: (start ++ '\n' :: '\n' :: (hom ++ ['\n', '\n'])))))

end B2.Alg.Report
