import Verif.Cpp.Trunc
import Verif.McCell.Model
import Verif.Boundary.Model

/-!
# Model of `McMd::CellList`

Source: `src/mcMd/neighbor/CellList.h`, `src/mcMd/neighbor/CellList.cpp`.

The associated boundary enters through the two functions that the class uses:
`lengths()` (read once in `setup`) and `transformCartToGen` (the parameter
`gen`).  Atoms are represented by their ids; positions are passed explicitly.
-/

namespace Verif.McCellList

open Verif.Boundary Verif.McCell Verif.Cpp

/-- One entry of `numCells_`, as computed by `setCellsAxis`
(CellList.cpp:68-71). -/
noncomputable def axisCells (length cutoff : ℝ) : ℤ :=
  let n := trunc (length / cutoff)
  if n < 1 then 1 else n

/-- `minDel_[axis]` (CellList.cpp:77-86). -/
def minDel (n : ℤ) : ℤ := if n > 2 then -1 else if n = 2 then -1 else 0

/-- `maxDel_[axis]` (CellList.cpp:77-86). -/
def maxDel (n : ℤ) : ℤ := if n > 2 then 1 else 0

/-- `shiftCellCoordAxis` (CellList.h:439-444), with `minCells_ = 0` and
`maxCells_ = n - 1` (CellList.cpp:74-75). -/
def shiftCoord (n x : ℤ) : ℤ :=
  if x > n - 1 then x - n else if x < 0 then x + n else x

/-- The state of a `CellList` (CellList.h:201-250): `numCells_`, `cells_` and
`cellTags_`.  `invCellWidths_`, `minCells_`, `maxCells_`, `minDel_`, `maxDel_`,
`YZCells_` and `totCells_` are functions of `numCells_`.  The members of a tag
are the cell id and the slot; `none` stands for a cleared tag. -/
structure CL where
  n : IVec
  cells : ℤ → Cell
  tags : Nat → Option (ℤ × Nat)

/-- `totCells_` (CellList.cpp:124-125). -/
def CL.tot (s : CL) : ℤ := s.n 1 * s.n 2 * s.n 0

/-- `cellIndexFromCoord` (CellList.h:449-452). -/
def cellIndex (n : IVec) (cx cy cz : ℤ) : ℤ := cx * (n 1 * n 2) + cy * n 2 + cz

/-- `cellCoordFromIndex` (CellList.h:457-464); C++ integer division. -/
def cellCoord (n : IVec) (i : ℤ) : IVec :=
  let cx := i.tdiv (n 1 * n 2)
  let i' := i - cx * (n 1 * n 2)
  let cy := i'.tdiv (n 2)
  ![cx, cy, i' - cy * n 2]

/-- `cellIndexFromPosition` (CellList.h:361-381), applied to the scaled
coordinates `u` of the position.  `none` if one of the six assertions fails
(with assertions compiled out the code would go on with an index of a wrong or
nonexistent cell). -/
noncomputable def indexFromGen (n : IVec) (u : Vec) : Option ℤ :=
  let cx := trunc (u 0 * (n 0 : ℝ))
  let cy := trunc (u 1 * (n 1 : ℝ))
  let cz := trunc (u 2 * (n 2 : ℝ))
  if cx ≥ 0 ∧ cx < n 0 ∧ cy ≥ 0 ∧ cy < n 1 ∧ cz ≥ 0 ∧ cz < n 2 then
    some (cz + cy * n 2 + cx * (n 1 * n 2))
  else none

/-- `setup` (CellList.cpp:114-141) followed by `clear` (CellList.cpp:44-60);
`none` if an exception is thrown.  The (re)allocation of arrays is not
modelled: `cells` is a total function. -/
noncomputable def setup (lengths : Vec) (cutoff : ℝ) : Option CL :=
  if cutoff ≤ 0 then none
  else
    let n : IVec := fun i => axisCells (lengths i) cutoff
    if n 1 * n 2 * n 0 < 1 then none
    else some { n := n, cells := fun _ => Cell.clear, tags := fun _ => none }

/-- Adding an atom to cell `k` and recording its tag (`Cell::addAtom`,
Cell.h:188-232). -/
def CL.addTo (cap : Nat) (s : CL) (a : Nat) (k : ℤ) : Res CL :=
  match (s.cells k).addAtom cap a with
  | none => .throw
  | some (c, p) => .ok { s with cells := Function.update s.cells k c
                                tags := Function.update s.tags a (some (k, p)) }

/-- `addAtom` (CellList.h:397-404). -/
noncomputable def CL.addAtom (gen : Vec → Vec) (cap : Nat) (s : CL) (a : Nat) (r : Vec) :
    Res CL :=
  match indexFromGen s.n (gen r) with
  | none => .ub
  | some k => s.addTo cap a k

/-- `deleteAtom` (CellList.h:386-392).  A cleared tag makes the code index
`cells_[-1]`. -/
def CL.deleteAtom (s : CL) (a : Nat) : Res CL :=
  match s.tags a with
  | none => .ub
  | some (k, p) => .ok { s with cells := Function.update s.cells k ((s.cells k).deleteAtom p)
                                tags := Function.update s.tags a none }

/-- `updateAtomCell` (CellList.h:409-420). -/
noncomputable def CL.updateAtomCell (gen : Vec → Vec) (cap : Nat) (s : CL) (a : Nat) (r : Vec) :
    Res CL :=
  match s.tags a with
  | none => .ub
  | some (oldCell, _) =>
    match indexFromGen s.n (gen r) with
    | none => .ub
    | some newCell =>
      if oldCell ≠ newCell then
        match s.deleteAtom a with
        | .ok s' => s'.addTo cap a newCell
        | .throw => .throw
        | .ub => .ub
      else .ok s

/-- The values `d` with `lo ≤ d ≤ hi`, in loop order. -/
def loop (lo hi : ℤ) : List ℤ := (List.range (hi - lo + 1).toNat).map (fun k : Nat => lo + (k : ℤ))

/-- The cells other than `ic` visited by the three loops of `getCellNeighbors`
(CellList.cpp:179-209), in order. -/
def otherCells (n : IVec) (ic : ℤ) : List ℤ :=
  let c := cellCoord n ic
  ((loop (minDel (n 0)) (maxDel (n 0))).flatMap fun dx =>
    (loop (minDel (n 1)) (maxDel (n 1))).flatMap fun dy =>
      (loop (minDel (n 2)) (maxDel (n 2))).map fun dz =>
        cellIndex n (shiftCoord (n 0) (c 0 + dx)) (shiftCoord (n 1) (c 1 + dy))
          (shiftCoord (n 2) (c 2 + dz))).filter (fun jc => jc ≠ ic)

/-- `getCellNeighbors` (CellList.cpp:146-211): the neighbour array and
`nInCell`. -/
def CL.cellNeighbors (s : CL) (ic : ℤ) : List Nat × Nat :=
  ((s.cells ic).list ++ (otherCells s.n ic).flatMap (fun jc => (s.cells jc).list),
   (s.cells ic).list.length)

/-- `getNeighbors` (CellList.h:425-431). -/
noncomputable def CL.getNeighbors (gen : Vec → Vec) (s : CL) (r : Vec) : Option (List Nat) :=
  (indexFromGen s.n (gen r)).map (fun ic => (s.cellNeighbors ic).1)

/-- `nAtom` (CellList.cpp:222-229): sum of `nAtomCell()` over the cells. -/
def CL.nAtom (s : CL) : Int :=
  ((List.range s.tot.toNat).map (fun k : Nat => (s.cells (k : ℤ)).nAtom)).sum

/-- `isValid` (CellList.cpp:237-255); true iff no exception is thrown. -/
def CL.isValid (cap : Nat) (s : CL) (nAtom : Int) : Prop :=
  (∀ k : Nat, (k : ℤ) < s.tot →
    (s.cells k).isValid cap (fun a => (s.tags a).map (fun t => (t.1.toNat, t.2))) k) ∧
  (nAtom ≥ 0 → s.nAtom = nAtom)

/-- Operations of a client. -/
inductive Op where
  | add (a : Nat) (r : Vec)
  | del (a : Nat)
  | move (a : Nat) (r : Vec)

/-- One operation. -/
noncomputable def step (gen : Vec → Vec) (cap : Nat) (s : CL) : Op → Res CL
  | .add a r => s.addAtom gen cap a r
  | .del a => s.deleteAtom a
  | .move a r => s.updateAtomCell gen cap a r

/-- A history of operations. -/
noncomputable def run (gen : Vec → Vec) (cap : Nat) (s : CL) : List Op → Res CL
  | [] => .ok s
  | op :: ops => match step gen cap s op with
    | .ok s' => run gen cap s' ops
    | .throw => .throw
    | .ub => .ub

end Verif.McCellList
