/-
Analyzers that measure displacements and shapes of molecules (mcMd/analyzers/system: AtomMSD, ComMSD,
RadiusGyrationSq, IntraPairAutoCorr, LinearRouseAutoCorr, RingRouseAutoCorr; mdPp/analyzers/AtomMSD
follows the same steps as the first).  Molecules are functions from atom indices to positions.
What is modelled is the value that each analyzer hands to its accumulator; the accumulators belong to
the util library.
-/
import Verif.Boundary.Mono
import Mathlib.Analysis.SpecialFunctions.Trigonometric.Basic
import Mathlib.Algebra.BigOperators.Fin

set_option autoImplicit false

namespace Verif.Analyze

open Verif.Boundary

/-- The functions of a boundary that analyzers call: `shift(r)`, the shift returned by
`distanceSq(r1, r2, shift)`, the separation returned by `distanceSq(r1, r2, dr)`, `lengths()`. -/
structure Box where
  shift : Vec → Vec
  translate : Vec → Vec → IVec
  sep : Vec → Vec → Vec
  lengths : Vec

/-- simp/boundary/OrthorhombicBoundary.h:430-577. -/
noncomputable def ofOrtho (b : Ortho) : Box := ⟨b.shift, b.translate, b.separation, b.lengths⟩

/-- simp/boundary/MonoclinicBoundary.h:402-675. -/
noncomputable def ofMono (b : Mono) : Box :=
  ⟨b.shift, fun r1 r2 => (b.image r1 r2).2, fun r1 r2 => (b.image r1 r2).1, b.lengths⟩

/-! ### Displacements -/

/-- `oldPositions_[i]` and `shifts_[i]` of AtomMSD.h and ComMSD.h. -/
structure Track where
  old : Vec
  shifts : IVec

/-- `AtomMSD::setup`, AtomMSD.cpp:150-158, and `ComMSD::setup`, ComMSD.cpp:142-149, for one
molecule. -/
def Track.start (b : Box) (pos : Vec) : Track := ⟨b.shift pos, fun _ => 0⟩

/-- The state after one sample, AtomMSD.cpp:182-189, 197, ComMSD.cpp:174-184. -/
def Track.next (b : Box) (t : Track) (pos : Vec) : Track :=
  let r := b.shift pos
  ⟨r, fun j => t.shifts j + b.translate r t.old j⟩

/-- `truePositions_[i]` in `AtomMSD::sample`, AtomMSD.cpp:191-194; `t` is the state after the
update. -/
def Track.atomPosition (b : Box) (t : Track) : Vec := fun j => t.old j + t.shifts j * b.lengths j

/-- The loop of `ComMSD::moleculeCom`, ComMSD.cpp:231-240, after `i` passes: `R` and `R0`. -/
def comLoop (b : Box) (mol : ℕ → Vec) (r0 : Vec) : ℕ → Vec × Vec
  | 0 => (r0, r0)
  | i + 1 =>
    let s := comLoop b mol r0 i
    let R := s.1 + b.sep (mol (i + 1)) (mol i)
    (R, s.2 + R)

/-- `ComMSD::moleculeCom`, ComMSD.cpp:229-244: `i` runs from 1 to `nAtom - 2`. -/
noncomputable def moleculeCom (b : Box) (mol : ℕ → Vec) (nAtom : ℕ) (r0 : Vec) : Vec :=
  fun j => (comLoop b mol r0 (nAtom - 2)).2 j / nAtom

/-- `truePositions_[i]` in `ComMSD::sample`, ComMSD.cpp:186-192; `t` is the state after the
update. -/
noncomputable def Track.comPosition (b : Box) (t : Track) (mol : ℕ → Vec) (nAtom : ℕ) : Vec :=
  fun j => moleculeCom b mol nAtom t.old j + t.shifts j * b.lengths j

/-- The state after `setup` with the first of a sequence of positions and samples of the others. -/
def track (b : Box) (pos : ℕ → Vec) : ℕ → Track
  | 0 => Track.start b (pos 0)
  | t + 1 => (track b pos t).next b (pos (t + 1))

/-! ### Shapes -/

/-- `positions_` in `RadiusGyrationSq::compute`, RadiusGyrationSq.cpp:90-97: the separation added is
that of atom `j-1` from atom `j`. -/
def mapOf (b : Box) (mol : ℕ → Vec) : ℕ → Vec
  | 0 => mol 0
  | j + 1 => mapOf b mol j + b.sep (mol j) (mol (j + 1))

/-- Square of a vector, util/space/Vector.h. -/
def square (v : Vec) : ℝ := v 0 * v 0 + v 1 * v 1 + v 2 * v 2

/-- The contribution of one molecule to `dRSq`, RadiusGyrationSq.cpp:90-106. -/
noncomputable def gyration (b : Box) (mol : ℕ → Vec) (nAtom : ℕ) : ℝ :=
  let p := mapOf b mol
  let cm : Vec := fun i => (∑ j ∈ Finset.range nAtom, p j i) / nAtom
  ∑ j ∈ Finset.range nAtom, square (p j - cm)

/-- `value_` of `RadiusGyrationSq::compute`, RadiusGyrationSq.cpp:77-111. -/
noncomputable def radiusGyrationSq (b : Box) (mols : List (ℕ → Vec)) (nAtom : ℕ) : ℝ :=
  (mols.map fun mol => gyration b mol nAtom).sum / mols.length / nAtom

/-- `data_[i]` in `IntraPairAutoCorr::sample`, IntraPairAutoCorr.cpp:166-172. -/
def intraPair (b : Box) (mol : ℕ → Vec) (atom1 atom2 : ℕ) : Vec :=
  ∑ j ∈ Finset.Ioc atom1 atom2, b.sep (mol (j - 1)) (mol j)

/-- `atomPos` in `LinearRouseAutoCorr::sample`, LinearRouseAutoCorr.cpp:192-199, and
`RingRouseAutoCorr::sample`, RingRouseAutoCorr.cpp:186-193. -/
def retrace (b : Box) (mol : ℕ → Vec) : ℕ → Vec
  | 0 => mol 0
  | j + 1 => retrace b mol j + b.sep (mol (j + 1)) (mol j)

/-- `data_[i]`, LinearRouseAutoCorr.cpp:192-202, RingRouseAutoCorr.cpp:186-196. -/
def mode (b : Box) (projector : ℕ → ℝ) (mol : ℕ → Vec) (nAtom : ℕ) : Vec :=
  ∑ j ∈ Finset.range nAtom, projector j • retrace b mol j

/-- `projector_` of `LinearRouseAutoCorr::setup`, LinearRouseAutoCorr.cpp:153-163: the last two
statements act on the first and the last element. -/
noncomputable def linearProjector (p nAtom : ℕ) (j : ℕ) : ℝ :=
  let qMode := Real.pi * p / (nAtom - 1)
  let x := if p = 0 then 1 / (nAtom : ℝ) else 1 / nAtom * Real.cos (qMode * j)
  let x := if j = 0 then x - 1 / 2 / nAtom else x
  if j = nAtom - 1 then x - 1 / 2 / nAtom else x

/-- `projector_` of `RingRouseAutoCorr::setup`, RingRouseAutoCorr.cpp:143-158. -/
noncomputable def ringProjector (p nAtom : ℕ) (j : ℕ) : ℝ :=
  if p = 0 then 1 / (nAtom : ℝ)
  else if p % 2 = 0 then 1 / nAtom * Real.cos (2 * Real.pi * (p / 2 : ℕ) / nAtom * j)
  else 1 / nAtom * Real.sin (2 * Real.pi * ((p + 1) / 2 : ℕ) / nAtom * j)

end Verif.Analyze
