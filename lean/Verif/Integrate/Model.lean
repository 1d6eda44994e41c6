/-
Molecular dynamics of one system: the atoms, the pair list that is rebuilt when
it has become obsolete, the forces, and the time steps of the integrators

  src/mcMd/mdSimulation/MdSystem.cpp
  src/mcMd/mdSimulation/MdSimulation.cpp
  src/mcMd/potentials/pair/MdPairPotential.cpp, MdPairPotentialImpl.h
  src/mcMd/mdIntegrators/NveVvIntegrator.cpp
  src/mcMd/mdIntegrators/NvtNhIntegrator.cpp
  src/ddMd/integrators/NveIntegrator.cpp
  src/ddMd/integrators/NvtIntegrator.cpp

Numbers are real numbers.  Atoms are elements of a type `ι`; the iterators over
species, molecules and atoms of a molecule visit them in the order of a list.
-/
import Verif.Boundary.Model
import Mathlib.Analysis.SpecialFunctions.Exp
import Mathlib.Analysis.SpecialFunctions.Sqrt

set_option autoImplicit false

namespace Verif.Integrate

open Verif.Boundary

variable {ι : Type} [DecidableEq ι] {P : Type}

/-- What a step of an integrator needs to know of a system.  `P` are the contents
of the pair list.

`isCurrent`, `build`: PairList::isCurrent and PairList::build (modelled in
`McPairList`; `build` gets the previous contents, which it overwrites in part); `shift`: Boundary::shift (modelled in `Boundary`); `forces l p`
is the sum of the contributions of all potentials, the nonbonded one being
summed over the pairs of the list `l` (MdPairPotentialImpl.h:285-318,
MdSystem.cpp:857-905).  -/
structure World (ι P : Type) where
  atoms : List ι
  typ : ι → ℕ
  nType : ℕ
  mass : ℕ → ℝ
  shift : Vec → Vec
  isCurrent : P → (ι → Vec) → Bool
  build : P → (ι → Vec) → P
  forces : P → (ι → Vec) → ι → Vec

/-- Positions, velocities and forces of the atoms, and the pair list. -/
structure Sys (ι P : Type) where
  pos : ι → Vec
  vel : ι → Vec
  force : ι → Vec
  list : P

/-- A loop over all atoms of the system: species, molecules, atoms
(e.g. NveVvIntegrator.cpp:112-126). -/
def World.each (w : World ι P) {S : Type} (f : S → ι → S) (s : S) : S := w.atoms.foldl f s

/-- MdSystem::shiftAtoms (MdSystem.cpp:743-759). -/
def shiftAtoms (w : World ι P) (s : Sys ι P) : Sys ι P :=
  w.each (fun s i => { s with pos := Function.update s.pos i (w.shift (s.pos i)) }) s

/-- MdPairPotential::buildPairList (MdPairPotential.cpp:37-66): all atoms are
moved into the primary cell, then the list is made. -/
def buildPairList (w : World ι P) (s : Sys ι P) : Sys ι P :=
  let s := shiftAtoms w s
  { s with list := w.build s.list s.pos }

/-- The check made before every use of the list (NveVvIntegrator.cpp:150-154,
MdPairPotentialImpl.h:289-291). -/
def refresh (w : World ι P) (s : Sys ι P) : Sys ι P :=
  if w.isCurrent s.list s.pos then s else buildPairList w s

/-- MdSystem::setZeroForces (MdSystem.cpp:764-776). -/
def setZeroForces (w : World ι P) (s : Sys ι P) : Sys ι P :=
  w.each (fun s i => { s with force := Function.update s.force i 0 }) s

/-- The contributions of all potentials are added to the forces
(MdSystem.cpp:863-904).  Simplified: the order in which the contributions are
added is not represented. -/
def addForces (w : World ι P) (s : Sys ι P) : Sys ι P :=
  w.each (fun s i =>
    { s with force := Function.update s.force i (s.force i + w.forces s.list s.pos i) }) s

/-- MdSystem::calculateForces (MdSystem.cpp:857-905). -/
def calculateForces (w : World ι P) (s : Sys ι P) : Sys ι P :=
  addForces w (refresh w (setZeroForces w s))

/-- Square of a vector: Vector::square(). -/
def sq (v : Vec) : ℝ := v 0 * v 0 + v 1 * v 1 + v 2 * v 2

/-- MdSystem::kineticEnergy (MdSystem.cpp:1003-1024). -/
noncomputable def kineticEnergy (w : World ι P) (vel : ι → Vec) : ℝ :=
  0.5 * w.each (fun e i => e + sq (vel i) * w.mass (w.typ i)) 0

/-! ### Velocity Verlet -/

/-- Data of NveVvIntegrator (NveVvIntegrator.h). -/
structure Nve where
  dt : ℝ
  pref : ℕ → ℝ

/-- The loop that fills the array of prefactors (NveVvIntegrator.cpp:75-78,
NvtNhIntegrator.cpp:119-123; in ddMd NveIntegrator.cpp:89-96). -/
noncomputable def prefactors (w : World ι P) (dt : ℝ) (q : ℕ → ℝ) : ℕ → ℝ :=
  (List.range w.nType).foldl (fun q t => Function.update q t (0.5 * dt / w.mass t)) q

/-- NveVvIntegrator::setup (NveVvIntegrator.cpp:71-81). -/
noncomputable def Nve.setup (w : World ι P) (g : Nve) : Nve :=
  { g with pref := prefactors w g.dt g.pref }

/-- The first loop over atoms (NveVvIntegrator.cpp:108-146; in ddMd
NveIntegrator::integrateStep1, NveIntegrator.cpp:101-118). -/
def Nve.step1 (w : World ι P) (g : Nve) (s : Sys ι P) : Sys ι P :=
  w.each (fun s i =>
    let v := s.vel i + g.pref (w.typ i) • s.force i
    { s with vel := Function.update s.vel i v
             pos := Function.update s.pos i (s.pos i + g.dt • v) }) s

/-- The second loop over atoms (NveVvIntegrator.cpp:159-182; in ddMd
NveIntegrator::integrateStep2, NveIntegrator.cpp:123-138). -/
def Nve.step2 (w : World ι P) (g : Nve) (s : Sys ι P) : Sys ι P :=
  w.each (fun s i =>
    { s with vel := Function.update s.vel i (s.vel i + g.pref (w.typ i) • s.force i) }) s

/-- NveVvIntegrator::step (NveVvIntegrator.cpp:96-185). -/
def Nve.step (w : World ι P) (g : Nve) (s : Sys ι P) : Sys ι P :=
  g.step2 w (calculateForces w (refresh w (g.step1 w s)))

/-- The main loop of MdSimulation::simulate (MdSimulation.cpp:437-493) from step
`i` to step `i + n`, for an integrator that keeps its own data in `G`.
`shifts i` tells whether analyzers are sampled at step `i`: then all atoms are
first moved into the primary cell. -/
def mainLoop {G : Type} (w : World ι P) (step : G × Sys ι P → G × Sys ι P) (shifts : ℕ → Bool) :
    ℕ → ℕ → G × Sys ι P → G × Sys ι P
  | _, 0, s => (s.1, shiftAtoms w s.2)
  | i, n + 1, s => mainLoop w step shifts (i + 1) n
      (step (if shifts i then (s.1, shiftAtoms w s.2) else s))

/-- MdSimulation::simulate with isContinuation false (MdSimulation.cpp:437-493). -/
def simulate {G : Type} (w : World ι P) (setup : Sys ι P → G → G)
    (step : G × Sys ι P → G × Sys ι P) (shifts : ℕ → Bool) (n : ℕ) (g : G) (s : Sys ι P) :
    G × Sys ι P :=
  let s := calculateForces w (shiftAtoms w s)
  mainLoop w step shifts 0 n (setup s g, s)

/-- One step of the velocity Verlet integrator, in the form used by the main loop. -/
def Nve.next (w : World ι P) (x : Nve × Sys ι P) : Nve × Sys ι P := (x.1, x.1.step w x.2)

/-! ### Nose-Hoover thermostat -/

/-- Data of NvtNhIntegrator (NvtNhIntegrator.h) and of the integrator
NvtIntegrator of ddMd. -/
structure Nh where
  dt : ℝ
  nuT : ℝ
  xi : ℝ
  xiDot : ℝ
  pref : ℕ → ℝ

/-- The time derivative of the thermostat variable (NvtNhIntegrator.cpp:114-116,
205-207): `T` is the temperature of the ensemble. -/
noncomputable def xiRate (w : World ι P) (T : ℝ) (nuT : ℝ) (vel : ι → Vec) : ℝ :=
  let tKin := kineticEnergy w vel * 2.0 / (3 * w.atoms.length : ℕ)
  (tKin / T - 1.0) * nuT * nuT

/-- NvtNhIntegrator::setup (NvtNhIntegrator.cpp:107-126). -/
noncomputable def Nh.setup (w : World ι P) (T : ℝ) (s : Sys ι P) (g : Nh) : Nh :=
  { g with
    xiDot := xiRate w T g.nuT s.vel
    xi := 0
    pref := prefactors w g.dt g.pref }

/-- First loop over atoms (NvtNhIntegrator.cpp:153-174; in ddMd
NvtIntegrator.cpp:156-165). -/
def Nh.step1 (w : World ι P) (g : Nh) (factor : ℝ) (s : Sys ι P) : Sys ι P :=
  w.each (fun s i =>
    let v := factor • s.vel i + g.pref (w.typ i) • s.force i
    { s with vel := Function.update s.vel i v
             pos := Function.update s.pos i (s.pos i + g.dt • v) }) s

/-- Second loop over atoms (NvtNhIntegrator.cpp:191-201; in ddMd
NvtIntegrator.cpp:180-187). -/
def Nh.step2 (w : World ι P) (g : Nh) (factor : ℝ) (s : Sys ι P) : Sys ι P :=
  w.each (fun s i =>
    let v := factor • (s.vel i + g.pref (w.typ i) • s.force i)
    { s with vel := Function.update s.vel i v }) s

/-- NvtNhIntegrator::step (NvtNhIntegrator.cpp:135-210). -/
noncomputable def Nh.step (w : World ι P) (T : ℝ) (x : Nh × Sys ι P) : Nh × Sys ι P :=
  let g := x.1
  let dtHalf := 0.5 * g.dt
  let factor := Real.exp (-dtHalf * (g.xi + g.xiDot * dtHalf))
  let s := g.step1 w factor x.2
  let xi := g.xi + g.xiDot * dtHalf
  let s := calculateForces w (refresh w s)
  let s := g.step2 w factor s
  let xiDot := xiRate w T g.nuT s.vel
  ({ g with xiDot := xiDot, xi := xi + xiDot * dtHalf }, s)

/-- The same step in ddMd: NvtIntegrator::integrateStep1, the computation of the
forces and NvtIntegrator::integrateStep2 (NvtIntegrator.cpp:143-213).
Simplified: one processor; the forces are computed by the same function. -/
noncomputable def Nh.ddStep (w : World ι P) (T : ℝ) (x : Nh × Sys ι P) : Nh × Sys ι P :=
  let g := x.1
  let dtHalf := 0.5 * g.dt
  let factor := Real.exp (-dtHalf * (g.xi + g.xiDot * dtHalf))
  let s := g.step1 w factor x.2
  let s := calculateForces w (refresh w s)
  let factor := Real.exp (-dtHalf * (g.xi + g.xiDot * dtHalf))
  let s := g.step2 w factor s
  let xi := g.xi + g.xiDot * dtHalf
  let xiDot := xiRate w T g.nuT s.vel
  ({ g with xiDot := xiDot, xi := xi + xiDot * dtHalf }, s)

end Verif.Integrate
