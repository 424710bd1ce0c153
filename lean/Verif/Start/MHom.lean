import Verif.Start.TotalDegree

/-!
# `start_system::MHomogeneous`

Code: `core/src/system/start/mhom.cpp`.

Simplifications: `int`, `size_t` and `unsigned long long` are unbounded; vectors indexed by function or
by variable group are functions on `ℕ` of which only the entries in range are used (every access of
the code is in range when there is at least one function and one group; otherwise line 159 or 193
already dereferences past the end).
-/

namespace B2.Start

/-- The local variables of `GenerateValidPartitions` (222-225) with the member `valid_partitions_`. -/
structure PState where
  row : ℤ
  part : ℕ → ℤ
  ctr : ℕ → ℤ
  out : List (List ℤ)

/-- The `while` loop of `ChooseColumnInRow`, 309-337: the first column from `col` on where the degree
and the counter are nonzero, `G` if there is none. -/
def scan (d ctr : ℕ → ℤ) (G col : ℕ) : ℕ :=
  if h : col < G then
    if d col = 0 ∨ ctr col = 0 then scan d ctr G (col + 1) else col
  else G
termination_by G - col

/-- One turn of the loop of `GenerateValidPartitions`, 240-271, with `ChooseColumnInRow`, 297-339,
in place. `deg` is `degree_matrix_`, `m` the number of functions, `G` the number of groups. Nothing
happens once `row` is `-1`: the loop is over. -/
def pstep (deg : ℕ → ℕ → ℤ) (m G : ℕ) (s : PState) : PState :=
  if s.row < 0 then s
  else
    let r := s.row.toNat
    let col0 := s.part r + 1                                             -- 299
    let ctr1 := if col0 - 1 > -1 then
        Function.update s.ctr (col0 - 1).toNat (s.ctr (col0 - 1).toNat + 1) else s.ctr  -- 302-306
    let col := scan (deg r) ctr1 G col0.toNat
    let ctr2 := if col < G then Function.update ctr1 col (ctr1 col - 1) else ctr1       -- 334
    let part1 := Function.update s.part r (col : ℤ)
    if col = G then { s with row := s.row - 1, part := part1, ctr := ctr2 }              -- 250-254
    else
      let row1 := s.row + 1                                              -- 257
      let part2 := if row1 < m then Function.update part1 row1.toNat (-1) else part1    -- 258-259
      if row1 = m then
        { row := row1 - 1, part := part2, ctr := ctr2,
          out := s.out ++ [(List.range m).map part2] }                   -- 263-269
      else { s with row := row1, part := part2, ctr := ctr2 }

/-- The state before the loop, 222-236: `sizes` is `VariableGroupSizes()`. -/
def pinit (sizes : ℕ → ℤ) : PState := ⟨0, fun _ => -1, sizes, []⟩

/-- `GenerateValidPartitions`, as a relation: the loop ends with these partitions. -/
def Partitions (deg : ℕ → ℕ → ℤ) (m G : ℕ) (sizes : ℕ → ℤ) (ps : List (List ℤ)) : Prop :=
  ∃ n, ((pstep deg m G)^[n] (pinit sizes)).row < 0 ∧ ((pstep deg m G)^[n] (pinit sizes)).out = ps

/-- `NumStartPointsForPartition`, 445-454. -/
def numForPartition (deg : ℕ → ℕ → ℤ) (p : List ℤ) : ℕ :=
  (p.zipIdx.map fun ci => (deg ci.2 ci.1.toNat).toNat).prod

/-- `NumStartPoints`, 122-130. -/
def mhomNumStartPoints (deg : ℕ → ℕ → ℤ) (ps : List (List ℤ)) : ℕ :=
  ps.foldl (fun acc p => acc + numForPartition deg p) 0

/-- The search loop of `GenerateStartPointT`, 349-367: the partition and the index inside it; the
exception of line 367 is `none`. -/
def findPartition (deg : ℕ → ℕ → ℤ) : List (List ℤ) → ℕ → ℕ → Option (List ℤ × ℕ)
  | [], _, _ => none
  | p :: ps, counter, index =>
    let counter1 := counter + numForPartition deg p
    if index < counter1 then some (p, index - (counter1 - numForPartition deg p))
    else findPartition deg ps counter1 index

/-- Lines 345-378 of `GenerateStartPointT`: partition and subscripts of a start point. -/
def mhomSubscript (deg : ℕ → ℕ → ℤ) (ps : List (List ℤ)) (index : ℕ) : Option (List ℤ × List ℕ) :=
  if ps.length ≤ 0 then none
  else
    (findPartition deg ps 0 index).bind fun pi =>
    (indexToSubscript pi.2 (pi.1.zipIdx.map fun ci => (deg ci.2 ci.1.toNat).toNat)).bind fun s =>
    some (pi.1, s)

end B2.Start
