/-
Selection of pairs of atoms and the analyzers that use it: `PairSelector`, `McPairEnergyAverage`,
`McPairEnergyAnalyzer`, `MdPairEnergyCoefficients` and `RDF` of mcMd/analyzers.

Simplified: atoms are their indices; the molecules of all species are numbered together; the
accumulators of util keep what they are given (trusted), and `RadialDistribution::clear` sets the number of
snapshots to zero (trusted).
-/
import Verif.Cpp.Outcome
import Mathlib.Data.Real.Basic

set_option autoImplicit false

namespace Verif.Select

open Verif.Cpp
open Verif.Cpp.Out

/-- `PairSelector::PairType`, PairSelector.h:45. -/
inductive Kind
  | intra | inter | all
  deriving DecidableEq

/-- Members of `PairSelector`, PairSelector.h:91-104. -/
structure Sel where
  kind : Kind
  t1 : ℤ
  t2 : ℤ
  avoid : Bool

/-- Atoms: molecule and type. -/
structure Atoms where
  mol : ℕ → ℕ
  typ : ℕ → ℤ

/-- `PairSelector::match`, PairSelector.cpp:36-77. -/
def Sel.match (s : Sel) (x : Atoms) (a b : ℕ) : Bool :=
  if s.kind = Kind.intra ∧ x.mol a ≠ x.mol b then false
  else if s.kind = Kind.inter ∧ x.mol a = x.mol b then false
  else if a = b then false
  else if s.t1 ≥ 0 ∧ x.typ a ≠ s.t1 then false
  else if s.t2 ≥ 0 ∧ x.typ b ≠ s.t2 then false
  else if s.avoid then
    if s.t1 < 0 ∧ s.t2 < 0 then (if a > b then false else true)
    else if x.typ a = x.typ b then (if a > b then false else true)
    else true
  else true

/-! ### McPairEnergyAverage, McPairEnergyAnalyzer -/

/-- Result of `getCellNeighbors` for a cell: the atoms in the cell, and those in it and its neighbors. -/
structure CellNeighbors where
  primary : List ℕ
  nearby : List ℕ

/-- Loops over cells and atoms, McPairEnergyAverage.cpp:106-141, McPairEnergyAnalyzer.cpp:76-111. -/
def mcEnergy (s : Sel) (x : Atoms) (masked : ℕ → ℕ → Bool) (e : ℕ → ℕ → ℝ)
    (cells : List CellNeighbors) : ℝ :=
  cells.foldl (fun E c =>
    c.primary.foldl (fun E i =>
      c.nearby.foldl (fun E j =>
        if s.match x i j then (if !masked i j then E + e i j else E) else E) E) E) 0

/-! ### MdPairEnergyCoefficients -/

/-- `append` to the neighbors of a molecule, with room for `cap` pairs. -/
def append (cap : ℕ) (L : ℕ → List (ℕ × ℕ)) (m : ℕ) (p : ℕ × ℕ) : Out (ℕ → List (ℕ × ℕ)) := do
  check ((L m).length < cap)
  ok (fun k => if k = m then L m ++ [p] else L k)

/-- Loop over the pair list, MdPairEnergyCoefficients.cpp:165-207. -/
def fill (s : Sel) (x : Atoms) (cap : ℕ) (pairs : List (ℕ × ℕ)) : Out (ℕ → List (ℕ × ℕ)) :=
  loop (fun L p =>
    if s.match x p.1 p.2 then do
      let L ← append cap L (x.mol p.1) p
      append cap L (x.mol p.2) (p.2, p.1)
    else ok L) pairs (fun _ => [])

/-- `twoMoleculePairEnergy_` of molecule `m` after the loop over its neighbors,
MdPairEnergyCoefficients.cpp:227-269. -/
def twoEnergy (s : Sel) (x : Atoms) (e : ℕ → ℕ → ℝ) (L : ℕ → List (ℕ × ℕ)) (m : ℕ) : ℕ → ℝ :=
  (L m).foldl (fun E p =>
    if s.match x p.1 p.2 then fun k => if k = x.mol p.2 then E k + e p.1 p.2 else E k else E)
    (fun _ => 0)

/-- `moleculePairEnergy`, MdPairEnergyCoefficients.cpp:225,271-284, for `M` molecules. -/
def molEnergy (s : Sel) (x : Atoms) (e : ℕ → ℕ → ℝ) (M : ℕ) (L : ℕ → List (ℕ × ℕ)) (m : ℕ) : ℝ :=
  (List.range M).foldl (fun E k => E + twoEnergy s x e L m k) 0

/-- What is sampled by `MdPairEnergyCoefficients::sample`, MdPairEnergyCoefficients.cpp:157-313:
`pairEnergy`, `moleculePESq`, `twoMoleculePESq` and the square of the first. -/
def coefficients (s : Sel) (x : Atoms) (e : ℕ → ℕ → ℝ) (cap M : ℕ) (pairs : List (ℕ × ℕ)) :
    Out (ℝ × ℝ × ℝ × ℝ) := do
  let L ← fill s x cap pairs
  let E := (List.range M).foldl (fun E m => E + molEnergy s x e M L m) 0
  let Q := (List.range M).foldl (fun Q m => Q + molEnergy s x e M L m * molEnergy s x e M L m) 0
  let T := (List.range M).foldl (fun T m =>
    (List.range M).foldl (fun T k => T + twoEnergy s x e L m k * twoEnergy s x e L m k) T) 0
  ok (E, Q, T, E * E)

/-! ### RDF -/

/-- The state of `RDF`: distances in the accumulator, its number of snapshots, and `normSum_`. -/
structure Rdf where
  dists : List ℝ
  nSnap : ℕ
  normSum : ℝ

/-- Constructor, RDF.cpp:28-39. -/
def Rdf.new : Rdf := ⟨[], 0, 0⟩

/-- `RDF::setup`, RDF.cpp:99-105. -/
def Rdf.setup (r : Rdf) : Rdf := { r with dists := [], nSnap := 0 }

/-- A configuration: atoms in the order of the loops, types, molecules, distances, volume. -/
structure Config where
  atoms : List ℕ
  x : Atoms
  dist : ℕ → ℕ → ℝ
  volume : ℝ

/-- `typeNumbers_`, RDF.cpp:121-123,136: entries 0 to `nType - 1`. -/
def typeNumber (c : Config) (t : ℕ) : ℕ :=
  c.atoms.foldl (fun n a => if c.x.typ a = (t : ℤ) then n + 1 else n) 0

/-- `RDF::sample` at an interval, RDF.cpp:108-179, for `nType` types of atoms. -/
noncomputable def Rdf.sample (s : Sel) (nType : ℕ) (r : Rdf) (c : Config) : Rdf :=
  let d := c.atoms.foldl (fun d a => c.atoms.foldl (fun d b =>
    if s.match c.x a b then d ++ [c.dist a b] else d) d) r.dists
  let number : ℝ := (List.range nType).foldl (fun n t => n + typeNumber c t) 0
  ⟨d, r.nSnap + 1, r.normSum + number * number / c.volume⟩

/-- The norm given to the accumulator by `RDF::output`, RDF.cpp:193-194. -/
noncomputable def Rdf.norm (r : Rdf) : ℝ := r.normSum / r.nSnap

end Verif.Select
