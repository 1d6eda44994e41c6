/-
Interactions of atoms with external fields (src/simp/interaction/external).

Simplifications: `double` is ℝ, so division by zero gives zero; tables indexed by the
type of the atom are functions on the integers and indices are not tested, as in the
operators of `DArray` without assertions; loops over the three directions are sums.
`L` is the vector returned by `lengths()` of the boundary.
-/
import Verif.Boundary.Model
import Verif.Cpp.Outcome
import Verif.Cpp.Trunc
import Mathlib.Analysis.SpecialFunctions.Trigonometric.Inverse
import Mathlib.Analysis.Complex.Trigonometric

set_option autoImplicit false

namespace Verif.External

open Verif.Boundary Verif.Cpp Verif.Cpp.Out

/-! ### Walls -/

/-- The parameters of `SlitExternal` (SlitExternal.h:181-210), `BoxExternal`
(BoxExternal.h:183-212) and `OrthoBoxExternal` (OrthoBoxExternal.h:187-219). -/
structure Wall where
  epsilon : ℝ
  sigma : ℝ
  cutoff : ℝ
  sigmaCb : ℝ
  coeff : ℝ
  initialized : Bool

/-- `coeff_` (SlitExternal.cpp:108, 161, BoxExternal.cpp:108, OrthoBoxExternal.cpp:115). -/
noncomputable def wallCoeff (epsilon sigmaCb : ℝ) : ℝ :=
  4.0 * epsilon * Real.arccos (-1.0) / 45.0 * 0.7 * sigmaCb

/-- `readParameters` of the three classes (SlitExternal.cpp:92-111,
BoxExternal.cpp:92-111, OrthoBoxExternal.cpp:95-118). -/
noncomputable def Wall.read (epsilon sigma cutoff : ℝ) : Wall :=
  { epsilon := epsilon, sigma := sigma, cutoff := cutoff
    sigmaCb := sigma * sigma * sigma
    coeff := wallCoeff epsilon (sigma * sigma * sigma)
    initialized := true }

/-- `set` of `BoxExternal` (BoxExternal.cpp:148-161) and `OrthoBoxExternal`
(OrthoBoxExternal.cpp:161-174). -/
def Wall.set (s : Wall) (name : String) (x : ℝ) : Out Wall :=
  if name = "epsilon" then ok { s with epsilon := x }
  else if name = "sigma" then ok { s with sigma := x }
  else if name = "cutoff" then ok { s with cutoff := x }
  else throw

/-- `SlitExternal::set` (SlitExternal.cpp:147-162). -/
noncomputable def Wall.slitSet (s : Wall) (name : String) (x : ℝ) : Out Wall := do
  let s ← s.set name x
  let cb := s.sigma * s.sigma * s.sigma
  ok { s with sigmaCb := cb, coeff := wallCoeff s.epsilon cb }

/-- `get` of the three classes (SlitExternal.cpp:167-182, BoxExternal.cpp:166-181). -/
def Wall.get (s : Wall) (name : String) : Out ℝ :=
  if name = "epsilon" then ok s.epsilon
  else if name = "sigma" then ok s.sigma
  else if name = "cutoff" then ok s.cutoff
  else throw

/-- `setExternalParameter` (SlitExternal.cpp:79-87, BoxExternal.cpp:79-87,
OrthoBoxExternal.cpp:82-90). -/
def Wall.setExternalParameter (s : Wall) (x : ℝ) : Out Wall := do
  check (s.initialized = true)
  ok { s with epsilon := x }

/-- `externalParameter` (SlitExternal.cpp:187-190, BoxExternal.cpp:186-189). -/
def Wall.externalParameter (s : Wall) : ℝ := s.epsilon

/-- `energy(double d, int type)` (SlitExternal.h:220-231, BoxExternal.h:222-233,
OrthoBoxExternal.h:229-240). -/
noncomputable def Wall.energy1 (s : Wall) (d : ℝ) : ℝ :=
  if d < s.cutoff then
    let r3i := d * d * d
    let r3i := if r3i < 0.129615 * s.sigmaCb then 0.129615 * s.sigmaCb else r3i
    let r3i := s.sigmaCb / r3i
    s.coeff * (r3i * (r3i * r3i - 7.5) + 7.905694)
  else 0

/-- `forceScalar(double d, int type)` (SlitExternal.h:247-258, BoxExternal.h:255-266,
OrthoBoxExternal.h:262-273). -/
noncomputable def Wall.force1 (s : Wall) (d : ℝ) : ℝ :=
  if d < s.cutoff then
    let r3i := d * d * d
    let r3i := if r3i < 0.129615 * s.sigmaCb then 0.129615 * s.sigmaCb else r3i
    let r3i := s.sigmaCb / r3i
    s.coeff * (9.0 * r3i * r3i - 22.5) * r3i / d
  else 0

/-- The energy of one direction as a function of the coordinate `x`
(SlitExternal.h:238-241, BoxExternal.h:245-247, OrthoBoxExternal.h:252-254). -/
noncomputable def Wall.energyAt (s : Wall) (len x : ℝ) : ℝ :=
  let halfL := len * 0.5
  let d := if x > halfL then halfL + halfL - x else x
  s.energy1 d

/-- The force of one direction as a function of the coordinate `x`
(SlitExternal.h:266-276, BoxExternal.h:280-287, OrthoBoxExternal.h:288-295). -/
noncomputable def Wall.forceAt (s : Wall) (len x : ℝ) : ℝ :=
  let halfL := len * 0.5
  if x > halfL then - s.force1 (halfL + halfL - x) else s.force1 x

/-- `SlitExternal::energy` (SlitExternal.h:236-242). -/
noncomputable def slitEnergy (s : Wall) (L r : Vec) : ℝ := s.energyAt (L 2) (r 2)

/-- `SlitExternal::getForce` (SlitExternal.h:263-277). -/
noncomputable def slitForce (s : Wall) (L r : Vec) : Vec := ![0, 0, s.forceAt (L 2) (r 2)]

/-- `OrthoBoxExternal::energy` (OrthoBoxExternal.h:245-257); `first` is `indConfine_`. -/
noncomputable def orthoBoxEnergy (s : Wall) (first : ℕ) (L r : Vec) : ℝ :=
  ∑ i : Fin 3, if first ≤ (i : ℕ) then s.energyAt (L i) (r i) else 0

/-- `OrthoBoxExternal::getForce` (OrthoBoxExternal.h:278-297). -/
noncomputable def orthoBoxForce (s : Wall) (first : ℕ) (L r : Vec) : Vec :=
  fun i => if first ≤ (i : ℕ) then s.forceAt (L i) (r i) else 0

/-- `BoxExternal::energy` (BoxExternal.h:238-250). -/
noncomputable def boxEnergy (s : Wall) (L r : Vec) : ℝ := ∑ i : Fin 3, s.energyAt (L i) (r i)

/-- `BoxExternal::getForce` (BoxExternal.h:271-289). -/
noncomputable def boxForce (s : Wall) (L r : Vec) : Vec := fun i => s.forceAt (L i) (r i)

/-! ### Lamellar field -/

/-- `LamellarOrderingExternal` (LamellarOrderingExternal.h:162-191). -/
structure Lamellar where
  perpDirection : Fin 3
  prefactor : ℤ → ℝ
  externalParameter : ℝ
  interfaceWidth : ℝ
  periodicity : ℤ

/-- `energy(double d, int type)` and `energy(position, type)`
(LamellarOrderingExternal.h:196-223). -/
noncomputable def Lamellar.energy (s : Lamellar) (L r : Vec) (type : ℤ) : ℝ :=
  let d := r s.perpDirection
  let perpLength := L s.perpDirection
  let q := (2.0 * Real.pi * s.periodicity) / perpLength
  let clipParameter := 1.0 / (q * s.interfaceWidth * perpLength)
  let arg := q * d
  let clipcos := clipParameter * Real.cos arg
  s.prefactor type * s.externalParameter * Real.tanh clipcos

/-- `forceScalar` (LamellarOrderingExternal.h:228-242). -/
noncomputable def Lamellar.forceScalar (s : Lamellar) (L : Vec) (d : ℝ) (type : ℤ) : ℝ :=
  let perpLength := L s.perpDirection
  let q := (2.0 * Real.pi * s.periodicity) / perpLength
  let clipParameter := 1.0 / (q * s.interfaceWidth * perpLength)
  let arg := q * d
  let clipcos := clipParameter * Real.cos arg
  let tanH := Real.tanh clipcos
  let sechSq := 1.0 - tanH * tanH
  s.prefactor type * s.externalParameter * sechSq * clipParameter * Real.sin arg * q

/-- `getForce` (LamellarOrderingExternal.h:247-256). -/
noncomputable def Lamellar.force (s : Lamellar) (L r : Vec) (type : ℤ) : Vec :=
  setc (fun _ => 0) s.perpDirection (s.forceScalar L (r s.perpDirection) type)

/-! ### Periodic fields -/

/-- `Vector::dot` of the util library. -/
def vdot (u v : Vec) : ℝ := u 0 * v 0 + u 1 * v 1 + u 2 * v 2

/-- The wave vector `q` (PeriodicExternal.h:199-202 and elsewhere). -/
noncomputable def waveQ (periodicity : ℤ) (L w : Vec) : Vec :=
  ![2.0 * Real.pi * periodicity * w 0 / L 0, 2.0 * Real.pi * periodicity * w 1 / L 1,
    2.0 * Real.pi * periodicity * w 2 / L 2]

/-- `SimplePeriodicExternal` (SimplePeriodicExternal.h:142-174); `waves` is
`waveIntVectors_`. -/
structure Simple where
  prefactor : ℤ → ℝ
  externalParameter : ℝ
  waves : List IVec
  interfaceWidth : ℝ
  periodicity : ℤ

/-- `energy` (SimplePeriodicExternal.h:181-197). -/
noncomputable def Simple.energy (s : Simple) (L r : Vec) (type : ℤ) : ℝ :=
  let clipParameter := 1.0 / (2.0 * Real.pi * s.periodicity * s.interfaceWidth)
  let cosine := s.waves.foldl (fun cosine w =>
    cosine + Real.cos (vdot (waveQ s.periodicity L fun i => (w i : ℝ)) r)) 0
  let cosine := cosine * clipParameter
  s.prefactor type * s.externalParameter * Real.tanh cosine

/-- `getForce` (SimplePeriodicExternal.h:202-230). -/
noncomputable def Simple.force (s : Simple) (L r : Vec) (type : ℤ) : Vec :=
  let clipParameter := 1.0 / (2.0 * Real.pi * s.periodicity * s.interfaceWidth)
  let (cosine, deriv) := s.waves.foldl (fun (cd : ℝ × Vec) w =>
    let q := waveQ s.periodicity L fun i => (w i : ℝ)
    let arg := vdot q r
    let sine := -1.0 * Real.sin arg
    (cd.1 + Real.cos arg, fun i => cd.2 i + q i * sine)) ((0 : ℝ), (fun _ => 0 : Vec))
  let cosine := cosine * clipParameter
  let deriv : Vec := fun i => deriv i * clipParameter
  let tanH := Real.tanh cosine
  let sechSq := 1.0 - tanH * tanH
  let f := s.prefactor type * s.externalParameter * sechSq
  fun i => deriv i * (-1.0 * f)

/-- `PeriodicExternal` (PeriodicExternal.h:142-183): `waves` lists elements of
`waveVectors_` and `phases_`. -/
structure Periodic where
  prefactor : ℤ → ℝ
  externalParameter : ℝ
  C : ℝ
  waves : List (Vec × ℝ)
  shift : Vec
  interfaceWidth : ℝ
  periodicity : ℤ

/-- `energy` (PeriodicExternal.h:190-208). -/
noncomputable def Periodic.energy (s : Periodic) (L r : Vec) (type : ℤ) : ℝ :=
  let clipParameter := 1.0 / (2.0 * Real.pi * s.periodicity * s.interfaceWidth)
  let r : Vec := fun i => r i - s.shift i
  let cosine := s.waves.foldl (fun cosine w =>
    cosine + Real.cos (vdot (waveQ s.periodicity L w.1) r + w.2)) 0
  let cosine := cosine * clipParameter
  s.prefactor type * s.externalParameter * Real.tanh (s.C + cosine)

/-- `getForce` (PeriodicExternal.h:213-243). -/
noncomputable def Periodic.force (s : Periodic) (L r : Vec) (type : ℤ) : Vec :=
  let clipParameter := 1.0 / (2.0 * Real.pi * s.periodicity * s.interfaceWidth)
  let r : Vec := fun i => r i - s.shift i
  let (cosine, deriv) := s.waves.foldl (fun (cd : ℝ × Vec) w =>
    let q := waveQ s.periodicity L w.1
    let arg := vdot q r + w.2
    let sine := -1.0 * Real.sin arg
    (cd.1 + Real.cos arg, fun i => cd.2 i + q i * sine)) ((0 : ℝ), (fun _ => 0 : Vec))
  let cosine := cosine * clipParameter
  let deriv : Vec := fun i => deriv i * clipParameter
  let tanH := Real.tanh (s.C + cosine)
  let sechSq := 1.0 - tanH * tanH
  let f := s.prefactor type * s.externalParameter * sechSq
  fun i => deriv i * (-1.0 * f)

/-- One wave of `GeneralPeriodicExternal`: the vector, the phase, the shift and the
prefactors of the types of atoms. -/
structure GWave where
  vector : Vec
  phase : ℝ
  shift : Vec
  prefactor : ℤ → ℝ

/-- `GeneralPeriodicExternal` (GeneralPeriodicExternal.h:142-180); the entries of
`shifts_` and `prefactor_` are grouped by wave. -/
structure General where
  externalParameter : ℝ
  waves : List GWave
  interfaceWidth : ℝ
  periodicity : ℤ

/-- `energy` (GeneralPeriodicExternal.h:187-212). -/
noncomputable def General.energy (s : General) (L r : Vec) (type : ℤ) : ℝ :=
  let clipParameter := 1.0 / (2.0 * Real.pi * s.periodicity * s.interfaceWidth)
  let cosine := s.waves.foldl (fun cosine w =>
    let arg := vdot (waveQ s.periodicity L w.vector) (fun i => r i - w.shift i) + w.phase
    cosine + w.prefactor type * Real.cos arg) 0
  let cosine := cosine * clipParameter
  s.externalParameter * Real.tanh cosine

/-- `getForce` (GeneralPeriodicExternal.h:217-254). -/
noncomputable def General.force (s : General) (L r : Vec) (type : ℤ) : Vec :=
  let clipParameter := 1.0 / (2.0 * Real.pi * s.periodicity * s.interfaceWidth)
  let (cosine, deriv) := s.waves.foldl (fun (cd : ℝ × Vec) w =>
    let q := waveQ s.periodicity L w.vector
    let arg := vdot q (fun i => r i - w.shift i) + w.phase
    let sine := -1.0 * Real.sin arg
    (cd.1 + w.prefactor type * Real.cos arg,
      fun i => cd.2 i + q i * (w.prefactor type * sine))) ((0 : ℝ), (fun _ => 0 : Vec))
  let cosine := cosine * clipParameter
  let deriv : Vec := fun i => deriv i * clipParameter
  let tanH := Real.tanh cosine
  let sechSq := 1.0 - tanH * tanH
  let f := s.externalParameter * sechSq
  fun i => deriv i * (-1.0 * f)

/-! ### Nucleation field -/

/-- `NucleationExternal` (NucleationExternal.h:142-189): the members that
`PeriodicExternal` has too, and two more. -/
structure Nucleation extends Periodic where
  nucleationClip : ℝ
  bias : ℝ

/-- The phase of the window (NucleationExternal.h:217 and elsewhere). -/
noncomputable def Nucleation.theta (s : Nucleation) (L r : Vec) (i : Fin 3) : ℝ :=
  2.0 * Real.pi * r i / L i + Real.arccos s.bias

/-- A factor of the window (NucleationExternal.h:217-219, 236-238). -/
noncomputable def Nucleation.window (s : Nucleation) (L r : Vec) (i : Fin 3) : ℝ :=
  (Real.tanh (s.nucleationClip * (- s.bias + Real.cos (s.theta L r i))) + 1) / 2

/-- `energy` (NucleationExternal.h:196-222). -/
noncomputable def Nucleation.energy (s : Nucleation) (L r : Vec) (type : ℤ) : ℝ :=
  s.toPeriodic.energy L r type * s.window L r 0 * s.window L r 1 * s.window L r 2

/-- The term added in direction `i` with the factors of the directions `j` and `k`
(NucleationExternal.h:262-280). -/
noncomputable def Nucleation.edge (s : Nucleation) (L r : Vec) (i j k : Fin 3) : ℝ :=
  s.nucleationClip * (Real.pi / L i * Real.sin (s.theta L r i)) / Real.cosh (s.theta L r i) /
    Real.cosh (s.theta L r i) * s.window L r j * s.window L r k

/-- `getForce` (NucleationExternal.h:227-282). -/
noncomputable def Nucleation.force (s : Nucleation) (L r : Vec) (type : ℤ) : Vec :=
  let ne := s.window L r 0 * s.window L r 1 * s.window L r 2
  let f := s.toPeriodic.force L r type
  ![f 0 * ne + s.edge L r 0 1 2, f 1 * ne + s.edge L r 1 0 2, f 2 * ne + s.edge L r 2 0 1]

/-! ### Tabulated field around the centre of the cell -/

/-- `SphericalTabulatedExternal` (SphericalTabulatedExternal.h:135-167). -/
structure Tabulated where
  rMax : ℝ
  rMaxSq : ℝ
  dr : ℝ
  nr : ℤ
  potentials : ℤ → ℤ → ℝ

/-- `readParameters` (SphericalTabulatedExternal.cpp:118-167): `table` holds the values
of the file; the loop subtracts the last value from all values, from the first to the
last. The values printed and the tests of the file are omitted. -/
noncomputable def Tabulated.read (rMax : ℝ) (nr : ℤ) (table : ℤ → ℤ → ℝ) : Tabulated :=
  { rMax := rMax, rMaxSq := rMax * rMax, dr := rMax / ((nr - 1 : ℤ) : ℝ), nr := nr
    potentials := fun i j => table i j - table i (nr - 1) }

/-- The centre (SphericalTabulatedExternal.h:177-178, 203-204). -/
noncomputable def centre (L : Vec) : Vec := fun i => L i * 0.5

/-- `energy` (SphericalTabulatedExternal.h:174-193). -/
noncomputable def Tabulated.energy (s : Tabulated) (b : Ortho) (r : Vec) (type : ℤ) : Out ℝ :=
  let rSq := b.distanceSq r (centre b.lengths)
  if rSq < s.rMaxSq then do
    let d := Real.sqrt rSq
    let k := trunc (d / s.dr)
    let fp := d - k * s.dr
    check (k ≥ 0)
    check (k < s.nr - 1)
    check (fp ≥ 0)
    check (fp ≤ 1)
    let fm := 1.0 - fp
    ok (fm * s.potentials type k + fp * s.potentials type (k + 1))
  else ok 0

/-- `getForce` (SphericalTabulatedExternal.h:198-219). -/
noncomputable def Tabulated.force (s : Tabulated) (b : Ortho) (r : Vec) (type : ℤ) : Out Vec :=
  let dr := b.separation r (centre b.lengths)
  let rSq := b.distanceSq r (centre b.lengths)
  if rSq < s.rMaxSq then do
    let d := Real.sqrt rSq
    let k := trunc (d / s.dr)
    check (k ≥ 0)
    check (k < s.nr - 1)
    let fs := (s.potentials type k - s.potentials type (k + 1)) / s.dr
    ok fun i => dr i * (fs / d)
  else ok fun _ => 0

end Verif.External
