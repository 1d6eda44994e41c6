/-
The pair energy of the postprocessor: cell list of mdPp/neighbor/{Cell,CellList}.{h,cpp} and
mdPp/analyzers/PairEnergy.cpp.

Atoms are the elements of `Fin N`, in the order of the storage.  Simplified: the blocks of `atoms_`
that `build` gives to the cells are lists, with the atoms in the order in which they were placed (the
same counting scheme as in ddMd/neighbor); pointers into one block are compared as the atoms they
hold; the capacity of 2000 neighbours is not modelled, nor the memory of the arrays of offsets.
-/
import Verif.Boundary.Mono
import Mathlib.Algebra.BigOperators.Group.List.Basic

set_option autoImplicit false

namespace Verif.Post

open Verif.Boundary

/-- `grid_`, `lower_`, `upper_`, `cellLengths_` of CellList.h. -/
structure CellGrid where
  dim : Fin 3 → ℤ
  lower : Vec
  upper : Vec
  cellLengths : Vec

/-- The result of `setGridDimensions`, CellList.cpp:57-85; `none` if an exception is thrown. -/
noncomputable def setGrid (lower upper : Vec) (cutoff : ℝ) : Option CellGrid :=
  open Classical in
  if ∃ i, upper i - lower i < 0 ∨ upper i - lower i < cutoff then none
  else
    some { dim := fun i => ⌊(upper i - lower i) / cutoff⌋, lower := lower, upper := upper
           cellLengths := fun i => (upper i - lower i) / (⌊(upper i - lower i) / cutoff⌋ : ℤ) }

/-- `gridOffsets_`, CellList.cpp:91-94. -/
def CellGrid.offsets (g : CellGrid) : Fin 3 → ℤ := ![g.dim 1 * g.dim 2, g.dim 2, 1]

/-- `Grid::size`. -/
def CellGrid.size (g : CellGrid) : ℤ := g.dim 0 * g.dim 1 * g.dim 2

/-- `Grid::rank`. -/
def CellGrid.rank (g : CellGrid) (p : Fin 3 → ℤ) : ℤ :=
  p 0 * g.offsets 0 + p 1 * g.offsets 1 + p 2 * g.offsets 2

/-- The position of a cell in the grid, CellList.h:378-383. -/
def CellGrid.coords (g : CellGrid) (cellId : ℤ) : Fin 3 → ℤ :=
  let p0 := cellId.tdiv (g.offsets 0)
  let c1 := cellId - p0 * g.offsets 0
  let p1 := c1.tdiv (g.offsets 1)
  let c2 := c1 - p1 * g.offsets 1
  ![p0, p1, c2]

/-- `calculateAxisOffset`, CellList.h:372-389. -/
def CellGrid.axisOffset (g : CellGrid) (cellId : ℤ) (i : Fin 3) (x : ℤ) : ℤ :=
  let x := x.tmod (g.dim i)
  let p := g.coords cellId
  if p i + x ≥ g.dim i then (x - g.dim i) * g.offsets i
  else if p i + x < 0 then (g.dim i + x) * g.offsets i
  else x * g.offsets i

open Classical in
/-- `cellIndexFromPosition`, CellList.h:396-410. -/
noncomputable def CellGrid.index (g : CellGrid) (r : Vec) : ℤ :=
  if ∃ i, r i ≤ g.lower i ∨ r i ≥ g.upper i then -1
  else g.rank fun i => ⌊(r i - g.lower i) / g.cellLengths i⌋

variable {N : ℕ}

/-- The atoms of a cell after `placeAtom` for all atoms and `build`, CellList.h:415-431,
CellList.cpp:183-197. -/
noncomputable def CellGrid.cell (g : CellGrid) (pos : Fin N → Vec) (c : ℤ) : List (Fin N) :=
  (List.finRange N).filter fun a => decide (0 ≤ g.index (pos a) ∧ g.index (pos a) = c)

/-- One term of `offset` in `getNeighbors`, Cell.cpp:66-68: the arrays hold the offsets for one step
forward and one step back, CellList.cpp:152-157. -/
def CellGrid.term (g : CellGrid) (c : ℤ) (i : Fin 3) (d : ℤ) : ℤ :=
  if d = 0 then 0 else if d > 0 then g.axisOffset c i 1 else g.axisOffset c i (-1)

/-- The offset of a neighbour, Cell.cpp:62-68. -/
def CellGrid.step (g : CellGrid) (c : ℤ) (d0 d1 d2 : ℤ) : ℤ :=
  g.term c 0 d0 + g.term c 1 d1 + g.term c 2 d2

/-- `Cell::getNeighbors`, Cell.cpp:44-81; the identifier of the cell with index `c` is `c`
(CellList.cpp:102-106). -/
noncomputable def CellGrid.getNeighbors (g : CellGrid) (pos : Fin N → Vec) (c : ℤ) : List (Fin N) :=
  g.cell pos c ++
    ([-1, 0, 1] : List ℤ).flatMap fun d0 => ([-1, 0, 1] : List ℤ).flatMap fun d1 =>
      ([-1, 0, 1] : List ℤ).flatMap fun d2 =>
        if ¬ (d0 = 0 ∧ d1 = 0 ∧ d2 = 0) ∧ c + g.step c d0 d1 d2 ≥ c then
          g.cell pos (c + g.step c d0 d1 d2)
        else []

/-- The energy of one snapshot, PairEnergy.cpp:115-166; `dsq` is `boundary.distanceSq`, `e` is
`interaction_.energy` for the types of two atoms. -/
noncomputable def pairEnergy (g : CellGrid) (dsq : Vec → Vec → ℝ) (cutoff : ℝ)
    (e : ℝ → Fin N → Fin N → ℝ) (pos : Fin N → Vec) : ℝ :=
  ((List.range g.size.toNat).map fun c : ℕ =>
    let neighbors := g.getNeighbors pos c
    let na := (g.cell pos c).length
    ((neighbors.take na).map fun a =>
      ((neighbors.take na).map fun b =>
        if a < b then
          if dsq (pos a) (pos b) ≤ cutoff * cutoff then e (dsq (pos a) (pos b)) a b else 0
        else 0).sum +
      ((neighbors.drop na).map fun b =>
        if dsq (pos a) (pos b) ≤ cutoff * cutoff then e (dsq (pos a) (pos b)) a b else 0).sum).sum).sum

end Verif.Post
