/-
Integrators with a stochastic thermostat: Langevin dynamics and dissipative
particle dynamics

  src/mcMd/mdIntegrators/NvtLangevinIntegrator.cpp
  src/ddMd/integrators/NvtLangevinIntegrator.cpp
  src/mcMd/mdIntegrators/NvtDpdVvIntegrator.cpp

The system, its forces and the main loop are those of `Integrate.Model`.  Numbers
are real numbers; the values returned by the random number generator are given
as arguments.
-/
import Verif.Integrate.Model
import Verif.Boundary.Ortho

set_option autoImplicit false

namespace Verif.Thermo

open Verif.Boundary Verif.Integrate

variable {ι : Type} [DecidableEq ι] {P : Type}

/-! ### Langevin dynamics -/

/-- Data of NvtLangevinIntegrator (NvtLangevinIntegrator.h).  `drawn` is the
number of steps for which random numbers have been taken from the generator. -/
structure Lang where
  dt : ℝ
  gamma : ℝ
  pref : ℕ → ℝ
  cv : ℕ → ℝ
  cr : ℕ → ℝ
  drawn : ℕ

/-- NvtLangevinIntegrator::setup (mcMd NvtLangevinIntegrator.cpp:84-108; in ddMd
NvtLangevinIntegrator.cpp:91-130) for an isothermal ensemble of temperature `T`;
for another ensemble the function throws. -/
noncomputable def Lang.setup (w : World ι P) (T : ℝ) (g : Lang) : Lang :=
  let cv := (Real.exp (-g.dt * g.gamma) - 1.0) / g.dt
  let d := 2.0 / (1.0 + Real.exp (-g.dt * g.gamma))
  let cr := 12.0 * T * d * (1.0 - Real.exp (-2.0 * g.dt * g.gamma)) / (g.dt * g.dt)
  { g with
    pref := prefactors w g.dt g.pref
    cv := (List.range w.nType).foldl (fun q t => Function.update q t (w.mass t * cv)) g.cv
    cr := (List.range w.nType).foldl (fun q t => Function.update q t (Real.sqrt (w.mass t * cr))) g.cr }

/-- First loop over atoms (mcMd NvtLangevinIntegrator.cpp:137-175; in ddMd
integrateStep1, NvtLangevinIntegrator.cpp:135-153). -/
def Lang.step1 (w : World ι P) (g : Lang) (s : Sys ι P) : Sys ι P :=
  w.each (fun s i =>
    let v := s.vel i + g.pref (w.typ i) • s.force i
    { s with vel := Function.update s.vel i v
             pos := Function.update s.pos i (s.pos i + g.dt • v) }) s

/-- Second loop over atoms (mcMd NvtLangevinIntegrator.cpp:190-236; in ddMd
integrateStep2, NvtLangevinIntegrator.cpp:158-187).  `u i j` is the value of
Random::uniform used for component `j` of atom `i`. -/
noncomputable def Lang.step2 (w : World ι P) (g : Lang) (u : ι → Vec) (s : Sys ι P) : Sys ι P :=
  w.each (fun s i =>
    let df : Vec := fun j => s.vel i j * g.cv (w.typ i) + (u i j - 0.5) * g.cr (w.typ i)
    let f := s.force i + df
    { s with force := Function.update s.force i f
             vel := Function.update s.vel i (s.vel i + g.pref (w.typ i) • f) }) s

/-- NvtLangevinIntegrator::step (mcMd NvtLangevinIntegrator.cpp:123-239).  `U k`
are the random numbers used in step `k` of the run. -/
noncomputable def Lang.step (w : World ι P) (U : ℕ → ι → Vec) (x : Lang × Sys ι P) : Lang × Sys ι P :=
  let g := x.1
  let s := g.step1 w x.2
  let s := calculateForces w (refresh w s)
  ({ g with drawn := g.drawn + 1 }, g.step2 w (U g.drawn) s)

/-- A simulation of `n` steps, with random numbers taken from the first on. -/
noncomputable def Lang.run (w : World ι P) (T : ℝ) (U : ℕ → ι → Vec) (shifts : ℕ → Bool) (n : ℕ)
    (g : Lang) (s : Sys ι P) : Lang × Sys ι P :=
  simulate w (fun _ g => { g.setup w T with drawn := 0 }) (Lang.step w U) shifts n g s

/-! ### Dissipative particle dynamics -/

/-- Data of NvtDpdVvIntegrator (NvtDpdVvIntegrator.h).  Simplified: the arrays of
forces are indexed by atoms instead of the numbers of atoms.  `drawn` is the
number of calls of Random::gaussian so far. -/
structure Dpd (ι : Type) where
  dt : ℝ
  cutoff : ℝ
  gamma : ℝ
  temperature : ℝ
  sigma : ℝ
  cutoffSq : ℝ
  pref : ℕ → ℝ
  diss : ι → Vec
  rand : ι → Vec
  drawn : ℕ

/-- What the integrator needs beyond the system: the pairs that the iterator over
the pair list visits, and Boundary::distanceSq with the separation vector. -/
structure Pairs (ι P : Type) where
  pairs : P → List (ι × ι)
  distanceSq : Vec → Vec → ℝ × Vec

/-- The weight of the random force (NvtDpdVvIntegrator.cpp:211-219); `kind` is the
macro MCMD_DPD_TYPE. -/
noncomputable def weight (kind : ℕ) (cutoff cutoffSq r rsq : ℝ) : ℝ :=
  if kind = 0 then 1.0 else if kind = 1 then 1.0 - r / cutoff else 1.0 - rsq / cutoffSq

/-- The body of the loop over pairs (NvtDpdVvIntegrator.cpp:203-239).  `G k` is the
`k`-th value of Random::gaussian. -/
noncomputable def Dpd.pair (kind : ℕ) (q : Pairs ι P) (G : ℕ → ℝ) (random : Bool) (s : Sys ι P)
    (g : Dpd ι) (ab : ι × ι) : Dpd ι :=
  let d := q.distanceSq (s.pos ab.1) (s.pos ab.2)
  if d.1 < g.cutoffSq then
    let r := Real.sqrt d.1
    let e : Vec := fun j => d.2 j / r
    let wr := weight kind g.cutoff g.cutoffSq r d.1
    let g :=
      if random then
        let fr := g.sigma * wr * G g.drawn
        let rand := Function.update g.rand ab.1 (g.rand ab.1 + fr • e)
        { g with rand := Function.update rand ab.2 (rand ab.2 - fr • e), drawn := g.drawn + 1 }
      else g
    let fd := -g.gamma * wr * wr * dot (s.vel ab.1 - s.vel ab.2) e
    let diss := Function.update g.diss ab.1 (g.diss ab.1 + fd • e)
    { g with diss := Function.update diss ab.2 (diss ab.2 - fd • e) }
  else g

/-- NvtDpdVvIntegrator::computeDpdForces (NvtDpdVvIntegrator.cpp:177-242). -/
noncomputable def Dpd.forces (kind : ℕ) (q : Pairs ι P) (G : ℕ → ℝ) (random : Bool) (s : Sys ι P)
    (g : Dpd ι) : Dpd ι :=
  let g := { g with diss := fun _ => 0 }
  let g := if random then { g with rand := fun _ => 0 } else g
  (q.pairs s.list).foldl (Dpd.pair kind q G random s) g

/-- The constants set by `setup` (NvtDpdVvIntegrator.cpp:149-159) for an ensemble of
temperature `T`. -/
noncomputable def Dpd.constants (w : World ι P) (T : ℝ) (g : Dpd ι) : Dpd ι :=
  { g with
    pref := prefactors w g.dt g.pref
    temperature := T
    sigma := Real.sqrt (2.0 * g.gamma * T / g.dt)
    cutoffSq := g.cutoff * g.cutoff }

/-- NvtDpdVvIntegrator::setup (NvtDpdVvIntegrator.cpp:143-168). -/
noncomputable def Dpd.setup (kind : ℕ) (w : World ι P) (q : Pairs ι P) (T : ℝ) (G : ℕ → ℝ)
    (x : Dpd ι × Sys ι P) : Dpd ι × Sys ι P :=
  let g := x.1.constants w T
  let s := calculateForces w (buildPairList w x.2)
  (g.forces kind q G true s, s)

/-- First loop over atoms (NvtDpdVvIntegrator.cpp:257-278). -/
def Dpd.step1 (w : World ι P) (g : Dpd ι) (s : Sys ι P) : Sys ι P :=
  w.each (fun s i =>
    let f := s.force i + g.diss i + g.rand i
    let v := s.vel i + g.pref (w.typ i) • f
    { s with vel := Function.update s.vel i v
             pos := Function.update s.pos i (s.pos i + g.dt • v) }) s

/-- Second loop over atoms (NvtDpdVvIntegrator.cpp:296-313). -/
def Dpd.step2 (w : World ι P) (g : Dpd ι) (s : Sys ι P) : Sys ι P :=
  w.each (fun s i =>
    let f := s.force i + g.diss i + g.rand i
    { s with vel := Function.update s.vel i (s.vel i + g.pref (w.typ i) • f) }) s

/-- NvtDpdVvIntegrator::step (NvtDpdVvIntegrator.cpp:247-319). -/
noncomputable def Dpd.step (kind : ℕ) (w : World ι P) (q : Pairs ι P) (G : ℕ → ℝ)
    (x : Dpd ι × Sys ι P) : Dpd ι × Sys ι P :=
  let s := x.1.step1 w x.2
  let s := calculateForces w s
  let g := x.1.forces kind q G true s
  let s := g.step2 w s
  (g.forces kind q G false s, s)

/-- A simulation of `n` steps (MdSimulation.cpp:437-493). -/
noncomputable def Dpd.run (kind : ℕ) (w : World ι P) (q : Pairs ι P) (T : ℝ) (G : ℕ → ℝ)
    (shifts : ℕ → Bool) (n : ℕ) (g : Dpd ι) (s : Sys ι P) : Dpd ι × Sys ι P :=
  mainLoop w (Dpd.step kind w q G) shifts 0 n
    (Dpd.setup kind w q T G (g, calculateForces w (shiftAtoms w s)))

end Verif.Thermo
