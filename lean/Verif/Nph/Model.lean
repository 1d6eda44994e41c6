/-
Molecular dynamics at constant pressure: the integrator NphIntegrator of mcMd, in
which the lengths of the cell are variables with momenta.

  src/mcMd/mdIntegrators/NphIntegrator.cpp
  src/mcMd/mdSimulation/MdSystem.cpp (computeStress)

The system, its pair list and forces are those of `Integrate.Model`, for every set of
lengths of the orthorhombic cell.  Numbers are real numbers.
-/
import Verif.Integrate.Verlet
import Mathlib.Analysis.SpecialFunctions.Pow.Real

set_option autoImplicit false
set_option linter.dupNamespace false

namespace Verif.Nph

open Verif.Boundary Verif.Integrate

variable {ι : Type} [DecidableEq ι] {P : Type}

/-- What the integrator needs to know of a system; see `Integrate.World`.  The
functions that depend on the boundary have its lengths as first argument.
`virial L l p`: diagonal components of MdSystem::computeVirialStress
(MdSystem.cpp:1069-1127), the nonbonded part being summed over the pairs of the list
`l`; `pressure`: BoundaryEnsemble::pressure.

Simplified: the stress is computed in every call, while the program keeps the value
computed first until positions change. -/
structure Env (ι P : Type) where
  atoms : List ι
  typ : ι → ℕ
  nType : ℕ
  mass : ℕ → ℝ
  shift : Vec → Vec → Vec
  isCurrent : Vec → P → (ι → Vec) → Bool
  build : Vec → P → (ι → Vec) → P
  forces : Vec → P → (ι → Vec) → ι → Vec
  virial : Vec → P → (ι → Vec) → Vec
  pressure : ℝ

/-- The system in a cell with given lengths. -/
def Env.world (e : Env ι P) (L : Vec) : World ι P where
  atoms := e.atoms
  typ := e.typ
  nType := e.nType
  mass := e.mass
  shift := e.shift L
  isCurrent := e.isCurrent L
  build := e.build L
  forces := e.forces L

/-- LatticeSystem, of which the integrator handles three cases. -/
inductive Mode where
  | cubic | tetragonal | orthorhombic
  deriving DecidableEq

/-- Data of NphIntegrator (NphIntegrator.h). -/
structure Nph where
  dt : ℝ
  W : ℝ
  mode : Mode
  eta : Vec
  pref : ℕ → ℝ

/-- The state of the program: integrator, lengths of the boundary, system. -/
structure State (ι P : Type) where
  nph : Nph
  L : Vec
  sys : Sys ι P

/-- The volume as computed in the step (NphIntegrator.cpp:154). -/
def vol (L : Vec) : ℝ := L 0 * L 1 * L 2

/-- MdSystem::computeKineticStress for a Vector (MdSystem.cpp:1029-1052): the diagonal
components. -/
noncomputable def Env.kineticStress (e : Env ι P) (L : Vec) (vel : ι → Vec) : Vec := fun a =>
  (e.world L).each (fun x i => x + vel i a * (e.mass (e.typ i) * vel i a)) 0 / vol L

/-- MdSystem::computeStress for a Vector (MdSystem.cpp:1146-1155). -/
noncomputable def Env.stress (e : Env ι P) (L : Vec) (s : Sys ι P) : Vec := fun a =>
  e.virial L s.list s.pos a + e.kineticStress L s.vel a

/-- Half a time step of the momenta of the barostat: `V` volume, `L` lengths, `p`
stress (NphIntegrator.cpp:158-170, and again 290-302). -/
noncomputable def Nph.pushEta (g : Nph) (extP V : ℝ) (L p : Vec) : Nph :=
  match g.mode with
  | .orthorhombic =>
    let Vdthalf := 1.0 / 2.0 * V * g.dt
    { g with eta := ![g.eta 0 + Vdthalf / L 0 * (p 0 - extP),
                      g.eta 1 + Vdthalf / L 1 * (p 1 - extP),
                      g.eta 2 + Vdthalf / L 2 * (p 2 - extP)] }
  | .tetragonal =>
    let Vdthalf := 1.0 / 2.0 * V * g.dt
    { g with eta := ![g.eta 0 + Vdthalf / L 0 * (p 0 - extP),
                      g.eta 1 + Vdthalf / L 1 * (p 1 + p 2 - 2.0 * extP),
                      g.eta 2] }
  | .cubic =>
    { g with eta := ![g.eta 0 + 1.0 / 2.0 * g.dt * (1.0 / 3.0 * (p 0 + p 1 + p 2) - extP),
                      g.eta 1, g.eta 2] }

/-- The lengths after half a step, the lengths after the step, and the volume after the
step (NphIntegrator.cpp:177-208). -/
noncomputable def Nph.boxes (g : Nph) (L : Vec) : Vec × Vec × ℝ :=
  let h := 1.0 / 2.0 * g.dt / g.W
  match g.mode with
  | .orthorhombic =>
    let l : Vec := ![L 0 + h * g.eta 0, L 1 + h * g.eta 1, L 2 + h * g.eta 2]
    let f : Vec := ![l 0 + h * g.eta 0, l 1 + h * g.eta 1, l 2 + h * g.eta 2]
    (l, f, f 0 * f 1 * f 2)
  | .tetragonal =>
    let l0 := L 0 + h * g.eta 0
    let l1 := L 1 + 1.0 / 2.0 * h * g.eta 1
    let f0 := l0 + h * g.eta 0
    let f1 := l1 + 1.0 / 2.0 * h * g.eta 1
    (![l0, l1, l1], ![f0, f1, f1], f0 * f1 * f1)
  | .cubic =>
    let volume := vol L + h * g.eta 0
    let l0 := volume ^ (1.0 / 3.0 : ℝ)
    let volumeFinal := volume + h * g.eta 0
    let f0 := volumeFinal ^ (1.0 / 3.0 : ℝ)
    (![l0, l0, l0], ![f0, f0, f0], volumeFinal)

/-- The first loop over atoms (NphIntegrator.cpp:213-253); `L`, `l`, `f`: lengths
before, in the middle of, and after the step. -/
noncomputable def Nph.step1 (g : Nph) (w : World ι P) (L l f : Vec) (s : Sys ι P) : Sys ι P :=
  let fac : Vec := fun a => f a / L a
  let dtFac : Vec := fun a => g.dt * L a * L a / l a / l a
  w.each (fun s i =>
    let vtmp : Vec := s.vel i + g.pref (w.typ i) • s.force i
    let dr : Vec := fun a => vtmp a * dtFac a
    let rtmp : Vec := s.pos i + dr
    { s with pos := Function.update s.pos i fun a => rtmp a * fac a
             vel := Function.update s.vel i fun a => vtmp a / fac a }) s

/-- The second loop over atoms (NphIntegrator.cpp:271-284). -/
def Nph.step2 (g : Nph) (w : World ι P) (s : Sys ι P) : Sys ι P :=
  w.each (fun s i =>
    { s with vel := Function.update s.vel i (s.vel i + g.pref (w.typ i) • s.force i) }) s

/-- NphIntegrator::setup (NphIntegrator.cpp:89-99). -/
noncomputable def Nph.setup (e : Env ι P) (L : Vec) (g : Nph) : Nph :=
  { g with pref := prefactors (e.world L) g.dt g.pref }

/-- NphIntegrator::step (NphIntegrator.cpp:101-323).  The pair list is checked when the
stress is computed (MdPairPotentialImpl.h:403-406). -/
noncomputable def step (e : Env ι P) (x : State ι P) : State ι P :=
  let s := refresh (e.world x.L) x.sys
  let g := x.nph.pushEta e.pressure (vol x.L) x.L (e.stress x.L s)
  let l := (g.boxes x.L).1
  let f := (g.boxes x.L).2.1
  let volumeFinal := (g.boxes x.L).2.2
  let w := e.world f
  let s := g.step1 w x.L l f s
  let s := calculateForces w (refresh w s)
  let s := g.step2 w s
  let s := refresh w s
  let g := g.pushEta e.pressure volumeFinal f (e.stress f s)
  { nph := g, L := f, sys := refresh w s }

/-- NphIntegrator::barostatEnergy (NphIntegrator.cpp:328-339). -/
noncomputable def Nph.barostatEnergy (g : Nph) : ℝ :=
  match g.mode with
  | .orthorhombic => (g.eta 0 * g.eta 0 + g.eta 1 * g.eta 1 + g.eta 2 * g.eta 2) / 2.0 / g.W
  | .tetragonal => (g.eta 0 * g.eta 0 + g.eta 1 * g.eta 1 / 2.0) / 2.0 / g.W
  | .cubic => g.eta 0 * g.eta 0 / 2.0 / g.W

/-- The main loop of MdSimulation::simulate (MdSimulation.cpp:468-520) from step `i` to
step `i + n`; `shifts i`: analyzers are sampled at step `i`. -/
noncomputable def mainLoop (e : Env ι P) (shifts : ℕ → Bool) : ℕ → ℕ → State ι P → State ι P
  | _, 0, x => { x with sys := shiftAtoms (e.world x.L) x.sys }
  | i, n + 1, x => mainLoop e shifts (i + 1) n
      (step e (if shifts i then { x with sys := shiftAtoms (e.world x.L) x.sys } else x))

/-- MdSimulation::simulate with isContinuation false (MdSimulation.cpp:437-520). -/
noncomputable def simulate (e : Env ι P) (shifts : ℕ → Bool) (n : ℕ) (x : State ι P) : State ι P :=
  let s := calculateForces (e.world x.L) (shiftAtoms (e.world x.L) x.sys)
  mainLoop e shifts 0 n { x with nph := x.nph.setup e x.L, sys := s }

end Verif.Nph
