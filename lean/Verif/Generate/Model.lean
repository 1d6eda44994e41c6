/-
Generation of random configurations:
src/mcMd/generators/{Generator,PointGenerator,LinearGenerator}.cpp and
`McSystem::generateMolecules`, src/mcMd/mcSimulation/McSystem.cpp:414-450.

Molecules are lists of atom ids.  The bookkeeping of molecules (`getMolecule`,
`addMolecule`, `removeMolecule`) is the subject of C34 (`Verif.McPool.generate`)
and is left out here.  Atom types are those after `setMoleculeState(., 0)` for a
mutable species.  Random numbers are streams of the results of
`randomPosition` and of a unit vector times `randomBondLength`; the state
counts how many results have been used.
-/
import Verif.Generate.Run
import Verif.McCellList.Props

set_option autoImplicit false

namespace Verif.Generate

open Verif.Boundary Verif.McCellList Verif.McCell Verif.Cpp
open Run

/-- What does not change: boundary, atom types, diameters, random numbers. -/
structure Setting where
  /-- `boundary().lengths()` -/
  lengths : Vec
  gen : Vec → Vec
  shift : Vec → Vec
  dsq : Vec → Vec → ℝ
  /-- `Cell::MaxAtomCell` -/
  cellCap : ℕ
  typ : ℕ → ℕ
  /-- the array `diameters` -/
  diams : List ℝ
  /-- results of `boundary().randomPosition` -/
  site : ℕ → Vec
  /-- unit vectors times `randomBondLength(&random, beta, bondType)` -/
  bond : (beta : ℝ) → (bondType : ℕ) → ℕ → Vec

/-- `diameters[typeId]`. -/
noncomputable def Setting.diam (g : Setting) (a : ℕ) : ℝ := g.diams.getD (g.typ a) 0

/-- What changes: positions, cell list, numbers of random results used. -/
structure St where
  pos : ℕ → Vec
  cells : CL
  nSite : ℕ
  nBond : ℕ

abbrev St.setPos (s : St) (a : ℕ) (r : Vec) : St := { s with pos := Function.update s.pos a r }

/-- Outcomes of the cell list. -/
def ofRes : Res CL → Run CL
  | .ok c => ok c
  | .throw => Run.throw
  | .ub => Run.ub

/-- `cellList.getNeighbors(pos, neighbors)` (mcMd/neighbor/CellList.h:425-431). -/
noncomputable def near (g : Setting) (s : St) (r : Vec) : Run (List ℕ) :=
  match s.cells.getNeighbors g.gen r with
  | none => Run.ub
  | some l => ok l

/-- `rSq < dSq` (Generator.cpp:70-75). -/
def TooClose (g : Setting) (s : St) (a b : ℕ) : Prop :=
  g.dsq (s.pos b) (s.pos a) < (1 / 2 * (g.diam a + g.diam b)) ^ 2

open Classical in
/-- `Generator::attemptPlaceAtom` (Generator.cpp:52-83). -/
noncomputable def attemptPlaceAtom (g : Setting) (a : ℕ) (s : St) : Run (St × Bool) := do
  let s := s.setPos a (g.shift (s.pos a))
  let l ← near g s (s.pos a)
  if ∃ b ∈ l, TooClose g s a b then ok (s, false)
  else do
    let c ← ofRes (s.cells.addAtom g.gen g.cellCap a (s.pos a))
    ok ({ s with cells := c }, true)

/-- State of the loops of attempts: the system, `success`, `iAttempt`. -/
abbrev Loop : Type := St × Bool × ℕ

/-- `!success && iAttempt < maxAttempt`. -/
def going (maxAttempt : ℕ) (x : Loop) : Bool := !x.2.1 && decide (x.2.2 < maxAttempt)

/-- One attempt to place an atom at random: the body of the loops
LinearGenerator.cpp:43-46 and PointGenerator.cpp:40-43, which do not change
`iAttempt`. -/
noncomputable def siteBody (g : Setting) (a : ℕ) (x : Loop) : Run Loop := do
  let s := { x.1.setPos a (g.site x.1.nSite) with nSite := x.1.nSite + 1 }
  let y ← attemptPlaceAtom g a s
  ok (y.1, y.2, x.2.2)

/-- `PointGenerator::attemptPlaceMolecule` (PointGenerator.cpp:30-45). -/
noncomputable def placePoint (g : Setting) (mol : List ℕ) (s : St) : Run (St × Bool) := do
  let x ← whileLoop (going 1) (siteBody g (mol.getD 0 0)) (s, false, 0)
  ok (x.1, x.2.1)

/-- One attempt to place an atom bonded to `prev` (LinearGenerator.cpp:64-70):
bond type 0 and `beta` 1. -/
noncomputable def bondBody (g : Setting) (prev a : ℕ) (x : Loop) : Run Loop := do
  let s := { x.1.setPos a (x.1.pos prev + g.bond 1 0 x.1.nBond) with nBond := x.1.nBond + 1 }
  let y ← attemptPlaceAtom g a s
  ok (y.1, y.2, x.2.2 + 1)

/-- Removing the atoms placed so far (LinearGenerator.cpp:73-75). -/
def deleteAtoms : List ℕ → St → Run St
  | [], s => ok s
  | a :: l, s => do
    let c ← ofRes (s.cells.deleteAtom a)
    deleteAtoms l { s with cells := c }

/-- The loop over the atoms after the first (LinearGenerator.cpp:58-78):
`done` are the atoms placed, `prev` the last of them. -/
noncomputable def placeRest (g : Setting) : List ℕ → ℕ → List ℕ → St → Run (St × Bool)
  | _, _, [], s => ok (s, true)
  | done, prev, a :: rest, s => do
    let x ← whileLoop (going 100) (bondBody g prev a) (s, false, 0)
    if x.2.1 then placeRest g (done ++ [a]) a rest x.1
    else do
      let s ← deleteAtoms done x.1
      ok (s, false)

/-- `LinearGenerator::attemptPlaceMolecule` (LinearGenerator.cpp:30-82). -/
noncomputable def placeLinear (g : Setting) (mol : List ℕ) (s : St) : Run (St × Bool) := do
  let x ← whileLoop (going 500) (siteBody g (mol.getD 0 0)) (s, false, 0)
  if x.2.1 then placeRest g [mol.getD 0 0] (mol.getD 0 0) mol.tail x.1
  else ok (x.1, false)

/-- A species: its capacity, whether it is `Linear` or `Point`
(generatorFactory.cpp:20-35), and the molecules to be generated, in the order in
which the simulation supplies them. -/
structure Kind where
  capacity : ℕ
  linear : Bool
  mols : List (List ℕ)

/-- `attemptPlaceMolecule`, a virtual function. -/
noncomputable def place (g : Setting) (linear : Bool) (mol : List ℕ) (s : St) : Run (St × Bool) :=
  if linear then placeLinear g mol s else placePoint g mol s

/-- The body of the loop Generator.cpp:112-116. -/
noncomputable def molBody (g : Setting) (linear : Bool) (mol : List ℕ) (x : Loop) : Run Loop := do
  let y ← place g linear mol x.1
  ok (y.1, y.2, x.2.2 + 1)

/-- The loop over molecules of `Generator::generate` (Generator.cpp:103-124). -/
noncomputable def placeMols (g : Setting) (linear : Bool) : List (List ℕ) → St → Run (St × Bool)
  | [], s => ok (s, true)
  | mol :: rest, s => do
    let x ← whileLoop (going 200) (molBody g linear mol) (s, false, 0)
    if x.2.1 then placeMols g linear rest x.1 else ok (x.1, false)

/-- `Generator::generate` (Generator.cpp:88-125). -/
noncomputable def generate (g : Setting) (k : Kind) (s : St) : Run (St × Bool) := do
  let _ ← check (k.mols.length ≤ k.capacity)
  placeMols g k.linear k.mols s

/-- `maxDiameter` (Generator.cpp:141-146). -/
noncomputable def maxDiameter (diams : List ℝ) : ℝ :=
  diams.foldl (fun m d => if d > m then d else m) 0

/-- `Generator::setupCellList` (Generator.cpp:130-150). -/
noncomputable def setupCells (g : Setting) (s : St) : Run St :=
  match setup g.lengths (maxDiameter g.diams) with
  | none => Run.throw
  | some c => ok { s with cells := c }

/-- The loop over species of `generateMolecules` (McSystem.cpp:428-441); a
generator is created only if molecules are asked for. -/
noncomputable def placeKinds (g : Setting) : List Kind → St → Run St
  | [], s => ok s
  | k :: rest, s =>
    if k.mols.length > 0 then do
      let y ← generate g k s
      let _ ← check (y.2 = true)
      placeKinds g rest y.1
    else placeKinds g rest s

/-- `McSystem::generateMolecules` (McSystem.cpp:414-441) and
`MdSystem::generateMolecules` (MdSystem.cpp:695-722), without the building of
the cell list or pair list of the potential at the end. -/
noncomputable def generateMolecules (g : Setting) (kinds : List Kind) (s : St) : Run St := do
  let s ← setupCells g s
  placeKinds g kinds s

end Verif.Generate
