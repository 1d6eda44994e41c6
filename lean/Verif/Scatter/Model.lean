/-
Sampling of structure factors: `StructureFactor`, `StructureFactorGrid`, `StructureFactorP` and `VanHove`
of mcMd/analyzers/system, and `StructureFactor`, `StructureFactorGrid` and `VanHove` of
ddMd/analyzers/scattering.

Simplified: arrays are functions, with loops over the allocated indices; `MPI::Reduce` is the sum over
processors; `std::exp`, `std::norm`, `std::conj` of complex numbers are those of ℂ.  A counter that no
function has set is `none`, and reading it is undefined behaviour.
-/
import Verif.Cpp.Outcome
import Mathlib.Analysis.SpecialFunctions.Complex.Circle
import Mathlib.Algebra.BigOperators.Fin

set_option autoImplicit false

namespace Verif.Scatter

open Verif.Cpp
open Verif.Cpp.Out

/-- `Vector` of util. -/
abbrev V3 := Fin 3 → ℝ

/-- An atom: position and type. -/
structure Atom where
  pos : V3
  typ : ℕ

/-- `Vector::dot` of util. -/
def dot (a b : V3) : ℝ := a 0 * b 0 + a 1 * b 1 + a 2 * b 2

/-- `makeWaveVectors`, mcMd StructureFactor.cpp:238-252, ddMd StructureFactor.cpp:250-265, for the
integer vector `n`. -/
def waveVector (recip : Fin 3 → V3) (n : Fin 3 → ℤ) : V3 :=
  (List.finRange 3).foldl (fun w j => w + (n j : ℝ) • recip j) 0

/-- `expFactor`, mcMd StructureFactor.cpp:190-191, ddMd StructureFactor.cpp:184-185. -/
noncomputable def phase (q r : V3) : ℂ := Complex.exp ((dot r q : ℝ) * Complex.I)

/-- `fourierModes_(i, j)` after the loop over atoms, mcMd StructureFactor.cpp:172-200, ddMd
StructureFactor.cpp:170-190; `coeff` is the row `j` of `modes_`. -/
noncomputable def fourier (recip : Fin 3 → V3) (coeff : ℕ → ℝ) (n : Fin 3 → ℤ) (atoms : List Atom) : ℂ :=
  atoms.foldl (fun z a => z + (coeff a.typ : ℂ) * phase (waveVector recip n) a.pos) 0

/-- `totalFourierModes_(i, j)` on the master, ddMd StructureFactor.cpp:192-207, for the atoms of each
processor. -/
noncomputable def totalFourier (recip : Fin 3 → V3) (coeff : ℕ → ℝ) (n : Fin 3 → ℤ)
    (ranks : List (List Atom)) : ℂ :=
  (ranks.map (fourier recip coeff n)).sum

/-- Parameters: number of waves and modes, integer vectors, coefficients. -/
structure Pars where
  nWave : ℕ
  nMode : ℕ
  waves : ℕ → Fin 3 → ℤ
  modes : ℕ → ℕ → ℝ

/-- A configuration: atoms of each processor (one list for mcMd), reciprocal basis, volume. -/
structure Config where
  ranks : List (List Atom)
  recip : Fin 3 → V3
  volume : ℝ

/-- `norm/volume`, mcMd StructureFactor.cpp:211-213, ddMd StructureFactor.cpp:225-226. -/
noncomputable def value (p : Pars) (c : Config) (i j : ℕ) : ℝ :=
  Complex.normSq (totalFourier c.recip (p.modes j) (p.waves i) c.ranks) / c.volume

/-- Accumulators `structureFactors_` and `nSample_`. -/
structure State where
  sf : ℕ → ℕ → ℝ
  nSample : Option ℕ

/-- Loops that increment `structureFactors_`, mcMd StructureFactor.cpp:206-218 with `start` 0, ddMd
StructureFactor.cpp:221-233 with `start` 1. -/
noncomputable def increment (start : ℕ) (p : Pars) (c : Config) (S : ℕ → ℕ → ℝ) : ℕ → ℕ → ℝ :=
  (List.range p.nMode).foldl (fun S j =>
    (List.range' start (p.nWave - start)).foldl (fun S i => fun i' j' =>
      if i' = i ∧ j' = j then S i j + value p c i j else S i' j') S) S

/-- `++nSample_`. -/
def count : Option ℕ → Out (Option ℕ)
  | none => ub
  | some n => ok (some (n + 1))

/-- `StructureFactor::sample` of mcMd (`start` 0), StructureFactor.cpp:146-233, and of ddMd (`start` 1),
StructureFactor.cpp:146-245. -/
noncomputable def sample (start : ℕ) (p : Pars) (s : State) (c : Config) : Out State := do
  let n ← count s.nSample
  ok ⟨increment start p c s.sf, n⟩

/-- `StructureFactor::setup` of mcMd, StructureFactor.cpp:125-141, `clear` of ddMd,
StructureFactor.cpp:123-141. -/
def clear (_ : State) : State := ⟨fun _ _ => 0, some 0⟩

/-- `StructureFactor::readParameters` of ddMd, StructureFactor.cpp:39-67: `nSample_` is not set. -/
def ddRead : State := ⟨fun _ _ => 0, none⟩

/-- `StructureFactorGrid::readParameters` of mcMd, StructureFactorGrid.cpp:220-227, and of ddMd,
StructureFactorGrid.cpp:224-234. -/
def gridRead : State := ⟨fun _ _ => 0, some 0⟩

/-- `StructureFactorGrid::setup` of mcMd, StructureFactorGrid.cpp:296-297, `clear` of ddMd,
StructureFactorGrid.cpp:302-303. -/
def gridClear (s : State) : State := s

/-- The value written by `output`, mcMd StructureFactor.cpp:273, ddMd StructureFactor.cpp:291. -/
noncomputable def output (s : State) (i j : ℕ) : Out ℝ :=
  match s.nSample with
  | none => ub
  | some n => ok (s.sf i j / n)

/-- The maximum that is written for a mode: its value and the index of its wave, mcMd
StructureFactor.cpp:207-218, ddMd StructureFactor.cpp:222-233. -/
noncomputable def maximum (start : ℕ) (p : Pars) (c : Config) (j : ℕ) : ℝ × Option ℕ :=
  open Classical in
  (List.range' start (p.nWave - start)).foldl (fun m i =>
    if value p c i j ≥ m.1 then (value p c i j, some i) else m) (0, none)

/-- `rho[k]` of `StructureFactorP`, StructureFactorP.cpp:144-176,184-191: density mode of the atoms of
type `t`, or of all atoms if `t` is negative. -/
noncomputable def rho (recip : Fin 3 → V3) (n : Fin 3 → ℤ) (atoms : List Atom) (t : ℤ) : ℂ :=
  if t ≥ 0 then fourier recip (fun s => if (s : ℤ) = t then 1 else 0) n atoms
  else fourier recip (fun _ => 1) n atoms

/-- Increment of `StructureFactorP::sample`, StructureFactorP.cpp:192-193, for a pair of types. -/
noncomputable def partialValue (recip : Fin 3 → V3) (volume : ℝ) (n : Fin 3 → ℤ) (atoms : List Atom)
    (t1 t2 : ℤ) : ℝ :=
  ((starRingEnd ℂ) (rho recip n atoms t1) * rho recip n atoms t2).re / volume

/-- What `VanHove::sample` gives to its accumulator, mcMd VanHove.cpp:125-172, ddMd VanHove.cpp:145-204. -/
noncomputable def vanHove (c : Config) (coeff : ℕ → ℝ) (n : Fin 3 → ℤ) : ℂ :=
  totalFourier c.recip coeff n c.ranks / (Real.sqrt c.volume : ℝ)

end Verif.Scatter
