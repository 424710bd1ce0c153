/-
The Butcher tables of the explicit Runge-Kutta predictors, transcribed from
/repo/core/src/tracking/explicit_predictors.cpp (line ranges at each table).

The arrays are kept exactly in the order of the source.  `a` is handed to `Eigen::Matrix(ptr)`, which is
column-major: the entry in row `i` and column `j` is `ptr[j*s + i]`; that reading is in `Table.a`.
-/
import Mathlib.Data.Rat.Defs
import Mathlib.Algebra.Field.Rat
import Mathlib.Tactic.NormNum.Inv

namespace B2.Predict

/-- One table: number of stages `s_`, the array behind `a_` in source order, `b_`, `b_minus_bstar_`
(empty when the method has no embedded formula) and `c_`.
/repo/core/include/bertini2/trackers/explicit_predictors.hpp, members `s_`, `a_`, `b_`,
`b_minus_bstar_`, `c_`. -/
structure Table where
  s : Nat
  aPtr : List ℚ
  bList : List ℚ
  dList : List ℚ
  cList : List ℚ

/-- `aref(ii,jj)`: column-major access to the array. -/
def Table.a (T : Table) (i j : Nat) : ℚ := T.aPtr.getD (j * T.s + i) 0
/-- `bref(ii)`. -/
def Table.b (T : Table) (i : Nat) : ℚ := T.bList.getD i 0
/-- `b_minus_bstar_ref(ii)`. -/
def Table.d (T : Table) (i : Nat) : ℚ := T.dList.getD i 0
/-- `cref(ii)`. -/
def Table.c (T : Table) (i : Nat) : ℚ := T.cList.getD i 0

/-- The constant predictor: one stage, all coefficients zero.
explicit_predictors.hpp lines 244-262. -/
def constantT : Table := ⟨1, [0], [0], [], [0]⟩

/-- `aEulerPtr_`, `bEulerPtr_`, `cEulerPtr_`: explicit_predictors.cpp lines 50-58. -/
def eulerT : Table where
  s := 1
  aPtr := [0]
  bList := [1]
  dList := []
  cList := [0]

/-- `aHeunEulerPtr_`, `bHeunEulerPtr_`, `b_minus_bstarHeunEulerPtr_`, `cHeunEulerPtr_`: explicit_predictors.cpp lines 73-86. -/
def heunEulerT : Table where
  s := 2
  aPtr := [0, 1,
    0, 0]
  bList := [1/2, 1/2]
  dList := [-1/2, 1/2]
  cList := [0, 1]

/-- `aRK4Ptr_`, `bRK4Ptr_`, `cRK4Ptr_`: explicit_predictors.cpp lines 102-116. -/
def rk4T : Table where
  s := 4
  aPtr := [0, 1/2, 0, 0,
    0, 0, 1/2, 0,
    0, 0, 0, 1,
    0, 0, 0, 0]
  bList := [1/6, 1/3, 1/3, 1/6]
  dList := []
  cList := [0, 1/2, 1/2, 1]

/-- `aRKF45Ptr_`, `bRKF45Ptr_`, `b_minus_bstarRKF45Ptr_`, `cRKF45Ptr_`: explicit_predictors.cpp lines 128-157. -/
def rkf45T : Table where
  s := 6
  aPtr := [0, 1/4, 3/32, 1932/2197, 439/216, -8/27,
    0, 0, 9/32, -7200/2197, -8, 2,
    0, 0, 0, 7296/2197, 3680/513, -3544/2565,
    0, 0, 0, 0, -845/4104, 1859/4104,
    0, 0, 0, 0, 0, -11/40,
    0, 0, 0, 0, 0, 0]
  bList := [16/135, 0, 6656/12825, 28561/56430, -9/50, 2/55]
  dList := [1/360, 0, -128/4275, -2197/75240, 1/50, 2/55]
  cList := [0, 1/4, 3/8, 12/13, 1, 1/2]

/-- `aRKCK45Ptr_`, `bRKCK45Ptr_`, `b_minus_bstarRKCK45Ptr_`, `cRKCK45Ptr_`: explicit_predictors.cpp lines 169-198. -/
def rkck45T : Table where
  s := 6
  aPtr := [0, 1/5, 3/40, 3/10, -11/54, 1631/55296,
    0, 0, 9/40, -9/10, 5/2, 175/512,
    0, 0, 0, 6/5, -70/27, 575/13824,
    0, 0, 0, 0, 35/27, 44275/110592,
    0, 0, 0, 0, 0, 253/4096,
    0, 0, 0, 0, 0, 0]
  bList := [37/378, 0, 250/621, 125/594, 0, 512/1771]
  dList := [-277/64512, 0, 6925/370944, -6925/202752, -277/14336, 277/7084]
  cList := [0, 1/5, 3/10, 3/5, 1, 7/8]

/-- `aRKDP56Ptr_`, `bRKDP56Ptr_`, `b_minus_bstarRKDP56Ptr_`, `cRKDP56Ptr_`: explicit_predictors.cpp lines 210-243. -/
def rkdp56T : Table where
  s := 8
  aPtr := [0, 1/10, -2/81, 615/1372, 3243/5500, -26492/37125, 5561/2376, 465467/266112,
    0, 0, 20/81, -270/343, -54/55, 72/55, -35/11, -2945/1232,
    0, 0, 0, 1053/1372, 50949/71500, 2808/23375, -24117/31603, -5610201/14158144,
    0, 0, 0, 0, 4998/17875, -24206/37125, 899983/200772, 10513573/3212352,
    0, 0, 0, 0, 0, 338/459, -5225/1836, -424325/205632,
    0, 0, 0, 0, 0, 0, 3925/4056, 376225/454272,
    0, 0, 0, 0, 0, 0, 0, 0,
    0, 0, 0, 0, 0, 0, 0, 0]
  bList := [821/10800, 0, 19683/71825, 175273/912600, 395/3672, 785/2704, 3/50, 0]
  dList := [13/2400, 0, -19683/618800, 2401/31200, -65/816, 15/416, 521/5600, -1/10]
  cList := [0, 1/10, 2/9, 3/7, 3/5, 4/5, 1, 1]

/-- `aRKV67Ptr_`, `bRKV67Ptr_`, `b_minus_bstarRKV67Ptr_`, `cRKV67Ptr_`: explicit_predictors.cpp lines 256-293. -/
def rkv67T : Table where
  s := 10
  aPtr := [0, 1/12, 0, 1/16, 21/16, 1344688/250563, -559/384, -625/224, -12253/99144, 30517/2512,
    0, 0, 1/6, 0, 0, 0, 0, 0, 0, 0,
    0, 0, 0, 3/16, -81/16, -1709184/83521, 6, 12, 16/27, -7296/157,
    0, 0, 0, 0, 9/2, 1365632/83521, -204/47, -456/47, 16/459, 268728/7379,
    0, 0, 0, 0, 0, -78208/250563, 14/39, 48/91, 29072/161109, 2472/2041,
    0, 0, 0, 0, 0, 0, -4913/78208, 14739/136864, -2023/75816, -3522621/10743824,
    0, 0, 0, 0, 0, 0, 0, 6/7, 112/12393, 132/157,
    0, 0, 0, 0, 0, 0, 0, 0, 0, 0,
    0, 0, 0, 0, 0, 0, 0, 0, 0, -12393/4396,
    0, 0, 0, 0, 0, 0, 0, 0, 0, 0]
  bList := [2881/40320, 0, 0, 1216/2961, -2624/4095, 24137569/57482880, -4/21, 0, 4131/3920, -157/1260]
  dList := [-17/2688, 0, 0, 272/4935, -272/273, 24137569/57482880, -34/105, -7/90, 4131/3920, -157/1260]
  cList := [0, 1/12, 1/6, 1/4, 3/4, 16/17, 1/2, 1, 2/3, 1]

end B2.Predict
