import Verif.McCellList.Model

/-!
# Model of `DdMd::CellList`, `DdMd::Cell`, `DdMd::PairList` and `DdMd::PairIterator`

Source: `src/ddMd/neighbor/{Cell,CellAtom,CellList,PairList,PairIterator}.{h,cpp}` and
`PairPotential::buildCellList`, `PairPotential::buildPairList`
(`src/ddMd/potentials/pair/PairPotential.cpp`).

A pointer to a `Cell` is its index in `cells_`, a pointer to a `CellAtom` is its index in
`atoms_`; `A` is the type of pointers to atoms. Doubles are real numbers. A failed `assert` is
the outcome `ub`.
-/

set_option autoImplicit false

namespace Verif.DdCellList

open Verif.Boundary Verif.Cpp Verif.McCellList

/-- Outcomes other than a normal return: an exception, or a failed assertion. -/
inductive Err
  | throw
  | ub
deriving DecidableEq

/-- A strip of relative cell ids: first and last. -/
abbrev Strip := ℤ × ℤ

/-! ## Offsets -/

/-- Entry `e[i + nCellCut_][j]` of the array of CellList.cpp:204-218, where
`q = cellLengths_[j]/cutoffs[j]`. -/
noncomputable def eVal (q : ℝ) (i : ℤ) : ℝ :=
  if i = 0 then 0 else (q * ((|i| - 1 : ℤ) : ℝ)) * (q * ((|i| - 1 : ℤ) : ℝ))

/-- Variables of the loop that makes `offsets_` (CellList.cpp:229-292). -/
structure Scan where
  offsets : List Strip
  strip : Strip
  active : Bool

/-- Body of the innermost loop (CellList.cpp:255-284); `near` is the test `e2 <= 1.0`. -/
def scanStep (s : Scan) (x : Bool × ℤ) : Scan :=
  let offset := x.2
  if x.1 then
    if offset ≠ 0 then
      if s.active then
        if offset = s.strip.2 + 1 then { s with strip := (s.strip.1, offset) }
        else { s with offsets := s.offsets ++ [s.strip], strip := (offset, offset) }
      else { s with strip := (offset, offset), active := true }
    else
      if s.active then { s with offsets := s.offsets ++ [s.strip], active := false } else s
  else
    if s.active then { s with offsets := s.offsets ++ [s.strip], active := false } else s

/-- The sequence of tests and offsets met by the three nested loops (CellList.cpp:245-256).
`d` are the dimensions of the grid, `q i = cellLengths_[i]/cutoffs[i]`. -/
noncomputable def visits (d : IVec) (q : Vec) (n : ℤ) : List (Bool × ℤ) :=
  (loop (-n) n).flatMap fun i => (loop (-n) n).flatMap fun j => (loop (-n) n).map fun k =>
    (decide (eVal (q 0) i + eVal (q 1) j + eVal (q 2) k ≤ 1),
     i * (d 2 * d 1) + j * d 2 + k)

/-- Closing of the last strip (CellList.cpp:289-292). -/
def Scan.finish (s : Scan) : List Strip := if s.active then s.offsets ++ [s.strip] else s.offsets

/-- `offsets_` (CellList.cpp:229-292). Appending to a full `FSArray` throws; `C21_offsets_fit`
shows that this cannot happen. -/
noncomputable def makeOffsets (d : IVec) (q : Vec) (n : ℤ) : List Strip :=
  ((visits d q n).foldl scanStep ⟨[(0, 0)], (0, 0), false⟩).finish

/-- `Cell::OffSetArrayCapacity` (Cell.h:91). -/
def offsetCapacity : ℕ := (2 * 4 + 1) * (2 * 4 + 1) + 3

/-! ## Cells and the cell list -/

/-- A `Cell` (Cell.h:238-259). -/
structure Cell where
  id : ℤ
  begin' : Option ℕ
  nAtom : ℕ
  cap : ℕ
  ghost : Bool
  next : Option ℤ

/-- A `CellList` (CellList.h:305-363). `tags` are the first `nAtom_` elements of `tags_`;
`grid_` is represented by its dimensions; `size` is `cells_.size()`. -/
structure CL (A : Type) where
  cells : ℤ → Cell
  size : ℤ
  first : Option ℤ
  dim : IVec
  nCut : ℤ
  lower : Vec
  upper : Vec
  lowerOuter : Vec
  upperOuter : Vec
  len : Vec
  offsets : List Strip
  tags : List (A × ℤ)
  nReject : ℕ
  atoms : ℕ → Option A
  atomCap : ℕ
  built : Bool

variable {A : Type}

/-- Constructor (CellList.cpp:22-38). The contents of unallocated arrays are arbitrary. -/
def CL.start (cells : ℤ → Cell) (atoms : ℕ → Option A) (v : Vec) : CL A :=
  { cells := cells, size := 0, first := none, dim := fun _ => 1, nCut := -1
    lower := v, upper := v, lowerOuter := v, upperOuter := v, len := fun _ => 0
    offsets := [], tags := [], nReject := 0, atoms := atoms, atomCap := 0, built := false }

/-- `grid_.size()`. -/
def gridSize (d : IVec) : ℤ := d 1 * d 2 * d 0

/-- `setAtomCapacity` (CellList.cpp:51-66). -/
def CL.setAtomCapacity (s : CL A) (cap : ℕ) : CL A :=
  if s.atomCap = 0 then { s with atomCap := cap }
  else if cap > s.atomCap then { s with atomCap := cap, atoms := fun _ => none } else s

/-- Ranks of the local cells in loop order (CellList.cpp:165-168). -/
def localCells (d : IVec) (n : ℤ) : List ℤ :=
  (loop n (d 0 - n - 1)).flatMap fun i => (loop n (d 1 - n - 1)).flatMap fun j =>
    (loop n (d 2 - n - 1)).map fun k => cellIndex d i j k

/-- Body of the loop over local cells (CellList.cpp:168-176): variables `cells_`, `prevPtr` and
`begin_`. -/
def linkStep (s : (ℤ → Cell) × Option ℤ × Option ℤ) (ic : ℤ) :
    (ℤ → Cell) × Option ℤ × Option ℤ :=
  let cells := Function.update s.1 ic { s.1 ic with ghost := false }
  match s.2.1 with
  | some p => (Function.update cells p { cells p with next := some ic }, some ic, s.2.2)
  | none => (cells, some ic, some ic)

/-- Numbering of the cells if the array grows, and marking of all cells as ghost cells
(CellList.cpp:142-158). The resizing keeps the elements of `cells_`. -/
def prepCells (cells : ℤ → Cell) (oldSize newSize : ℤ) (k : ℤ) : Cell :=
  if 0 ≤ k ∧ k < newSize then
    { cells k with id := if newSize > oldSize then k else (cells k).id, ghost := true }
  else cells k

/-- The part of `makeGrid` that is executed if `isNewGrid` (CellList.cpp:136-182).
`setLastCell` on a null pointer is undefined. -/
def CL.relink (s : CL A) (d : IVec) (n : ℤ) : Except Err (CL A) :=
  let newSize := gridSize d
  let r := (localCells d n).foldl linkStep (prepCells s.cells s.size newSize, none, s.first)
  match r.2.1 with
  | none => .error .ub
  | some p => .ok { s with dim := d, size := newSize, first := r.2.2
                           cells := Function.update r.1 p { r.1 p with next := none } }

/-- `gridDimensions[i]` before the ghost layers are added (CellList.cpp:118). -/
noncomputable def axisDim (length cutoff : ℝ) (n : ℤ) : ℤ := trunc (length * (n : ℝ) / cutoff)

open Classical in
/-- `makeGrid` (CellList.cpp:73-294). Simplification: when an exception is thrown the members
that have already been changed are not returned. -/
noncomputable def CL.makeGrid (s : CL A) (lower upper cutoffs : Vec) (n : ℤ) :
    Except Err (CL A) :=
  if n < 1 then .error .throw
  else if n > 4 then .error .throw
  else if ∃ i, upper i - lower i < 0 ∨ upper i - lower i < cutoffs i then .error .throw
  else
    let m : IVec := fun i => axisDim (upper i - lower i) (cutoffs i) n
    let len : Vec := fun i => (upper i - lower i) / (m i : ℝ)
    let d : IVec := fun i => m i + 2 * n
    let isNew := gridSize s.dim < 27 ∨ s.nCut = -1 ∨ s.nCut ≠ n ∨ ∃ i, d i ≠ s.dim i
    let s1 := { s with lower := lower, upper := upper, nCut := n, len := len
                       lowerOuter := fun i => lower i - (n : ℝ) * len i
                       upperOuter := fun i => upper i + (n : ℝ) * len i
                       offsets := makeOffsets d (fun i => len i / cutoffs i) n }
    if isNew then s1.relink d n else .ok s1

/-- `clear` (CellList.cpp:299-316, Cell.h:278-283). Before the first `makeGrid` the grid has one
cell but `cells_` is empty. -/
def CL.clear (s : CL A) : Except Err (CL A) :=
  if gridSize s.dim > s.size then .error .ub
  else .ok { s with
    cells := fun k => if 0 ≤ k ∧ k < gridSize s.dim then
      { s.cells k with begin' := none, nAtom := 0, cap := 0 } else s.cells k
    tags := [], nReject := 0, built := false }

open Classical in
/-- `cellIndexFromPosition` (CellList.h:372-386); `none` is the value -1. The assertion
`r[i] < grid_.dimension(i)` is proved (`cell_inGrid`). -/
noncomputable def CL.cellIndexFromPosition (s : CL A) (x : Vec) : Option ℤ :=
  if ∃ i, x i ≤ s.lowerOuter i ∨ x i ≥ s.upperOuter i then none
  else
    let r : IVec := fun i => trunc ((x i - s.lowerOuter i) / s.len i)
    some (cellIndex s.dim (r 0) (r 1) (r 2))

/-- `placeAtom` (CellList.h:391-405, Cell.h:272-276) for an atom `a` with position `x`. -/
noncomputable def CL.placeAtom (s : CL A) (a : A) (x : Vec) : Except Err (CL A) :=
  if ¬ s.tags.length < s.atomCap then .error .ub
  else match s.cellIndexFromPosition x with
    | none => .ok { s with nReject := s.nReject + 1 }
    | some k =>
      if (s.cells k).begin' ≠ none then .error .ub
      else .ok { s with
        tags := s.tags ++ [(a, k)]
        cells := Function.update s.cells k { s.cells k with cap := (s.cells k).cap + 1 } }

/-- Loop of `build` that calls `Cell::initialize` (CellList.cpp:323-326, Cell.h:285-293), from
cell `k`; `b` is `cellAtomPtr`. -/
def initCells : ℕ → ℤ → ℕ → (ℤ → Cell) → Except Err (ℤ → Cell)
  | 0, _, _, cells => .ok cells
  | f + 1, k, b, cells =>
    if (cells k).begin' ≠ none ∨ (cells k).nAtom ≠ 0 then .error .ub
    else initCells f (k + 1) (b + (cells k).cap)
      (Function.update cells k { cells k with begin' := some b })

/-- `Cell::append` for one tag (CellList.cpp:329-331, Cell.h:295-301). -/
def appendTag (s : (ℤ → Cell) × (ℕ → Option A)) (t : A × ℤ) :
    Except Err ((ℤ → Cell) × (ℕ → Option A)) :=
  let c := s.1 t.2
  match c.begin' with
  | none => .error .ub
  | some b =>
    if ¬ c.nAtom < c.cap then .error .ub
    else .ok (Function.update s.1 t.2 { c with nAtom := c.nAtom + 1 },
              Function.update s.2 (b + c.nAtom) (some t.1))

/-- `build` (CellList.cpp:320-350); the debugging block is omitted. -/
def CL.build (s : CL A) : Except Err (CL A) :=
  if gridSize s.dim > s.size then .error .ub
  else if s.atomCap = 0 then .error .ub
  else (initCells (gridSize s.dim).toNat 0 0 s.cells).bind fun cells =>
    (s.tags.foldlM appendTag (cells, s.atoms)).bind fun r =>
      .ok { s with cells := r.1, atoms := r.2, built := true }

/-- `PairPotential::buildCellList` (PairPotential.cpp:194-254): `totalCap` is the total capacity
of the atom storage, `atoms` are the local atoms followed by the ghosts, with their generalized
coordinates. The cutoffs and bounds are computed by the caller (PairPotential.cpp:222-226). -/
noncomputable def CL.buildAll (s : CL A) (totalCap : ℕ) (lower upper cutoffs : Vec) (n : ℤ)
    (atoms : List (A × Vec)) : Except Err (CL A) :=
  let s := if totalCap > s.atomCap then s.setAtomCapacity totalCap else s
  (s.makeGrid lower upper cutoffs n).bind fun s =>
    s.clear.bind fun s =>
      (atoms.foldlM (fun (s : CL A) a => s.placeAtom a.1 a.2) s).bind fun s =>
        s.build

/-! ## Neighbours -/

/-- Elements `b, ..., e - 1` of `atoms_`. -/
def slice (atoms : ℕ → Option A) (b e : ℕ) : List (Option A) :=
  (List.range (e - b)).map fun i => atoms (b + i)

/-- The atoms from the first atom of cell `k1` to the last atom of cell `k2`
(Cell.cpp:68-72, 80-84, 98-102). -/
def CL.strip (s : CL A) (k1 k2 : ℤ) : List (Option A) :=
  slice s.atoms ((s.cells k1).begin'.getD 0) ((s.cells k2).begin'.getD 0 + (s.cells k2).nAtom)

/-- `while (!bg) ++cellBegin` (Cell.cpp:89-92). -/
def upToGhost (cells : ℤ → Cell) : ℕ → ℤ → ℤ
  | 0, k => k
  | f + 1, k => if (cells k).ghost then k else upToGhost cells f (k + 1)

/-- `while (!eg) --cellEnd` (Cell.cpp:93-96). -/
def downToGhost (cells : ℤ → Cell) : ℕ → ℤ → ℤ
  | 0, k => k
  | f + 1, k => if (cells k).ghost then k else downToGhost cells f (k - 1)

/-- Cells of strip `o` whose atoms are added for cell `ic`: first and last, if any
(Cell.cpp:63-106). Each search for a ghost cell ends within the strip, which bounds the number
of steps. -/
def CL.range (s : CL A) (reverse : Bool) (ic : ℤ) (o : Strip) : Option (ℤ × ℤ) :=
  let b := ic + o.1
  let e := ic + o.2
  if (s.cells b).id ≥ (s.cells ic).id then some (b, e)
  else if reverse then none
  else if (s.cells b).ghost ∨ (s.cells e).ghost then
    some (upToGhost s.cells (e - b).toNat b, downToGhost s.cells (e - b).toNat e)
  else none

/-- Atoms appended for one strip (Cell.cpp:63-106). -/
def CL.stripAtoms (s : CL A) (reverse : Bool) (ic : ℤ) (o : Strip) : List (Option A) :=
  match s.range reverse ic o with
  | some (k1, k2) => s.strip k1 k2
  | none => []

/-- Contents of the neighbour array before the capacity is checked. -/
def CL.nbrList (s : CL A) (reverse : Bool) (ic : ℤ) : List (Option A) :=
  s.offsets.flatMap (s.stripAtoms reverse ic)

/-- `Cell::getNeighbors` (Cell.cpp:46-107); `cap` is `MaxNeighborAtom`: appending to a full
`FSArray` throws. -/
def CL.getNeighbors (s : CL A) (reverse : Bool) (cap : ℕ) (ic : ℤ) : Except Err (List (Option A)) :=
  if (s.nbrList reverse ic).length ≤ cap then .ok (s.nbrList reverse ic) else .error .throw

/-- The cells met by `cellPtr = begin(); while (cellPtr) {... cellPtr = nextCellPtr()}`; at most
`fuel` steps. -/
def walk (cells : ℤ → Cell) : ℕ → Option ℤ → List ℤ
  | 0, _ => []
  | _, none => []
  | f + 1, some k => k :: walk cells f (cells k).next

/-- Cells visited by a loop over local cells. -/
def CL.walk (s : CL A) : List ℤ := DdCellList.walk s.cells s.size.toNat s.first

/-! ## Pair list -/

/-- Arrays `atom1Ptrs_`, `atom2Ptrs_`, `first_` (PairList.h:199-206); they grow as needed. -/
structure PL (A : Type) where
  atom1 : List (Option A)
  atom2 : List (Option A)
  first : List ℕ

/-- Loop over secondary atoms (PairList.cpp:177-185): appended atoms. `near a b` is the test
`dr.square() < cutoffSq && !maskPtr->isMasked(atom2Ptr->id())` with primary atom `a`. -/
def selected (near : Option A → Option A → Bool) (a : Option A) (l : List (Option A)) :
    List (Option A) := l.filter (near a)

/-- Processing of the primary atom at the head of `l` (PairList.cpp:173-191). -/
def primary (near : Option A → Option A → Bool) (p : PL A) (a : Option A) (l : List (Option A)) :
    PL A :=
  let sel := selected near a l
  let atom2 := p.atom2 ++ sel
  if sel.isEmpty then { p with atom2 := atom2 }
  else { atom1 := p.atom1 ++ [a], atom2 := atom2, first := p.first ++ [atom2.length] }

/-- Loop over the first `na` atoms of a neighbour array (PairList.cpp:171-193). -/
def primaries (near : Option A → Option A → Bool) : ℕ → List (Option A) → PL A → PL A
  | 0, _, p => p
  | _, [], p => p
  | n + 1, a :: l, p => primaries near n l (primary near p a l)

/-- Processing of one cell (PairList.cpp:165-194). -/
def cellPairs (s : CL A) (reverse : Bool) (cap : ℕ) (near : Option A → Option A → Bool)
    (p : PL A) (ic : ℤ) : Except Err (PL A) :=
  if (s.cells ic).nAtom = 0 then .ok p
  else (s.getNeighbors reverse cap ic).bind fun l => .ok (primaries near (s.cells ic).nAtom l p)

/-- Postconditions tested by `build` (PairList.cpp:201-211). -/
def PL.check (p : PL A) : Except Err (PL A) :=
  if p.atom1.length ≠ 0 ∧ (p.first.length ≠ p.atom1.length + 1 ∨ p.first[0]? ≠ some 0 ∨
      p.first[p.atom1.length]? ≠ some p.atom2.length) then .error .throw
  else .ok p

/-- `PairList::build` (PairList.cpp:131-223): `pairCap` is `pairCapacity()`. Counters used
for statistics are omitted. -/
def buildPairs (s : CL A) (reverse : Bool) (cap : ℕ) (near : Option A → Option A → Bool)
    (atomCap pairCap : ℕ) : Except Err (PL A) :=
  if s.built = false then .error .throw
  else if atomCap = 0 then .error .throw
  else if pairCap = 0 then .error .throw
  else (s.walk.foldlM (cellPairs s reverse cap near) ⟨[], [], [0]⟩).bind PL.check

/-- Number of pairs of one primary atom and all the following (PairList.cpp:102-117). -/
def countPrimaries (near : Option A → Option A → Bool) : ℕ → List (Option A) → ℕ
  | 0, _ => 0
  | _, [] => 0
  | n + 1, a :: l => (l.filter (near a)).length + countPrimaries near n l

/-- One cell of `countPairs` (PairList.cpp:96-118). -/
def countCell (s : CL A) (reverse : Bool) (cap : ℕ) (near : Option A → Option A → Bool)
    (k : ℕ) (ic : ℤ) : Except Err ℕ :=
  if (s.cells ic).nAtom = 0 then .ok k
  else (s.getNeighbors reverse cap ic).bind fun l =>
    .ok (k + countPrimaries near (s.cells ic).nAtom l)

/-- `PairList::countPairs` (PairList.cpp:72-126). -/
def countPairs (s : CL A) (reverse : Bool) (cap : ℕ) (near : Option A → Option A → Bool) :
    Except Err ℕ :=
  if s.built = false then .error .throw
  else s.walk.foldlM (countCell s reverse cap near) 0

/-- `PairPotential::buildPairList` (PairPotential.cpp:259-286): `pairCap` is the capacity of the
pair list before the call; `reservePairs` sets the capacity to the value given. -/
def buildPairList (s : CL A) (reverse : Bool) (cap : ℕ) (near : Option A → Option A → Bool)
    (storageCap pairCap : ℕ) : Except Err (PL A) :=
  if storageCap = 0 then .error .throw
  else if s.built = false then .error .throw
  else if pairCap = 0 then
    (countPairs s reverse cap near).bind fun nPair =>
      buildPairs s reverse cap near storageCap (if nPair > 0 then 3 * nPair / 2 else 0)
  else buildPairs s reverse cap near storageCap pairCap

/-- State of a `PairIterator` (PairIterator.h:101-122): the pair list it points into, `nAtom2_`,
`atom1Id_`, `atom2Id_`. -/
structure Iter (A : Type) where
  list : PL A
  n2 : ℕ
  id1 : ℕ
  id2 : ℕ

/-- Default constructor (PairIterator.h:133-141). -/
def Iter.start : Iter A := ⟨⟨[], [], []⟩, 0, 0, 0⟩

/-- `PairList::begin` (PairList.cpp:228-239). -/
def PL.begin' (p : PL A) (it : Iter A) : Iter A :=
  if p.atom1.length ≠ 0 then ⟨p, p.atom2.length, 0, 0⟩ else it

/-- A loop `for (; iter.notEnd(); ++iter) iter.getPair(..)` (PairIterator.h:159-195): pairs
visited. Each step increments `atom2Id_`, so that there are `nAtom2_ - atom2Id_` rounds; reading
past the end of an array is the outcome `none`. -/
def Iter.run (it : Iter A) : ℕ → ℕ → ℕ → List (Option (Option A) × Option (Option A))
  | 0, _, _ => []
  | f + 1, a1, a2 => (it.list.atom1[a1]?, it.list.atom2[a2]?) ::
      it.run f (if some (a2 + 1) = it.list.first[a1 + 1]? then a1 + 1 else a1) (a2 + 1)

/-- All pairs visited from iterator state `it`. -/
def Iter.pairs (it : Iter A) : List (Option (Option A) × Option (Option A)) :=
  it.run (it.n2 - it.id2) it.id1 it.id2

end Verif.DdCellList
