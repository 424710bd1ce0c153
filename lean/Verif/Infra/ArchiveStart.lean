/-
Model of the serialization of start systems: total degree
(/repo/core/include/bertini2/system/start/total_degree.hpp lines 128-144), multihomogeneous
(/repo/core/include/bertini2/system/start/mhom.hpp lines 92-139) and user-defined
(/repo/core/include/bertini2/system/start/user.hpp lines 104-157).  `StartSystem` itself is a system without further data
(start_base.hpp lines 68-73).

Simplifications as in Archive.lean.  Matrices are lists of rows.
-/
import Verif.Infra.Archive

namespace B2.Infra.Arch

/-- `TotalDegree`, total_degree.hpp lines 129-130. -/
structure TotalDeg where
  base : Sys
  randoms : List Ptr
  degrees : List ℕ
  deriving DecidableEq

/-- `TotalDegree::serialize`, total_degree.hpp lines 136-141. -/
def wTotalDeg (t : TotalDeg) : List Fld := wSys t.base ++ (wList wPtr t.randoms ++ wList wNat t.degrees)

def rTotalDeg : Rd TotalDeg :=
  rSys.bind fun a => (rList rPtr).bind fun b => (rList rNat).bind fun c => .done ⟨a, b, c⟩

/-- `MHomogeneous`, mhom.hpp lines 92-126, without `temp_v_mp_`. -/
structure MHomog where
  base : Sys
  degreeMatrix : List (List ℕ)
  partitions : List (List ℕ)
  degrees : List ℕ
  varGroups : List (List Ptr)
  linprods : List (List Ptr)
  cols : List (List ℕ)
  deriving DecidableEq

/-- `MHomogeneous::serialize`, mhom.hpp lines 134-139, writing. -/
def wMHomog (t : MHomog) : List Fld := wSys t.base ++ wList wNat t.degrees

/-- `MHomogeneous::serialize`, reading into a default constructed object. -/
def rMHomog : Rd MHomog :=
  rSys.bind fun a => (rList rNat).bind fun d =>
    .done { base := a, degreeMatrix := [], partitions := [], degrees := d, varGroups := [], linprods := [], cols := [] }

/-- `NumStartPointsForPartition`, /repo/core/src/system/start/mhom.cpp lines 445-454.  An entry outside of the matrix is
undefined in the code and 0 here. -/
def MHomog.numForPartition (t : MHomog) (p : List ℕ) : ℕ :=
  ((List.range p.length).map fun i => (t.degreeMatrix.getD i []).getD (p.getD i 0) 0).prod

/-- `NumStartPoints`, mhom.cpp lines 122-130. -/
def MHomog.numPoints (t : MHomog) : ℕ := (t.partitions.map t.numForPartition).sum

/-- `User`, user.hpp lines 113-115.  The reference to the user's system is the system itself here. -/
structure UserStart where
  system : Sys
  inDbl : Bool
  dbl : List (List Num)
  mp : List (List Num)
  deriving DecidableEq

/-- `save_construct_data`, user.hpp lines 121-133. -/
def wUser (t : UserStart) : List Fld :=
  wSys t.system ++ (wBool t.inDbl ++ (wList (wList wNum) t.dbl ++ wList (wList wNum) t.mp))

/-- `load_construct_data`, user.hpp lines 135-157: only one container is read.  The constructors
(/repo/core/src/system/start/user.cpp lines 35-43) leave the other container empty. -/
def rUser : Rd UserStart :=
  rSys.bind fun s => rBool.bind fun d => (rList (rList rNum)).bind fun l =>
    .done (if d then ⟨s, true, l, []⟩ else ⟨s, false, [], l⟩)

/-- The constructors, user.cpp lines 35-43. -/
def UserStart.ofDbl (s : Sys) (pts : List (List Num)) : UserStart := ⟨s, true, pts, []⟩

def UserStart.ofMp (s : Sys) (pts : List (List Num)) : UserStart := ⟨s, false, [], pts⟩

/-- `NumStartPoints`, user.cpp lines 46-52. -/
def UserStart.numPoints (t : UserStart) : ℕ := if t.inDbl then t.dbl.length else t.mp.length

/-- `GenerateStartPoint` in multiple precision, user.cpp lines 73-91; out of range (undefined in the code) is `none`. -/
def UserStart.point (t : UserStart) (i : ℕ) : Option (List Num) := if t.inDbl then t.dbl[i]? else t.mp[i]?

end B2.Infra.Arch
