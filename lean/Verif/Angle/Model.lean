import Verif.Pair.Force
import Verif.Bond.Model
import Mathlib.Analysis.SpecialFunctions.Trigonometric.Inverse

/-!
# Model of the angle interactions

Sources: `src/simp/interaction/angle/{Bend,BendForce,CosineAngle,CosineSqAngle,HarmonicAngle}.h`,
the `.cpp` files, and the loops of `src/mcMd/potentials/angle/AnglePotentialImpl.h` and
`src/ddMd/potentials/angle/AnglePotentialImpl.h` for one angle. `double` is `ℝ`. `std::acos` is
`Real.arccos`, which agrees with it on `[-1,1]` (outside of this interval the C function returns a
NaN; the theorems show that arguments are inside).
-/

set_option autoImplicit false

namespace Verif.Angle

open Verif.Boundary hiding dot
open Verif.Pair Verif.Bond

/-- `Vector::abs`. -/
noncomputable def vabs (v : Vec) : ℝ := Real.sqrt (normSq v)

/-- `Vector::cross`. -/
def cross (x y : Vec) : Vec :=
  ![x 1 * y 2 - x 2 * y 1, x 2 * y 0 - x 0 * y 2, x 0 * y 1 - x 1 * y 0]

/-! ## Bend and BendForce -/

/-- `Bend::computeAngle` (Bend.h:67-74): `cosTheta`. -/
noncomputable def computeAngle (b1 b2 : Vec) : ℝ :=
  let d := Real.sqrt (normSq b1 * normSq b2)
  let c := dot b1 b2 / d
  let c := if c > 1 then 1 else c
  if c < -1 then -1 else c

/-- `Bend::sinTheta` (Bend.h:79-81). -/
noncomputable def sinTheta (c : ℝ) : ℝ := Real.sqrt (1 - c * c)

/-- `BendForce` (BendForce.h:30-56): cosine and its derivatives. -/
structure BendForce where
  cosTheta : ℝ
  d1 : Vec
  d2 : Vec

/-- `BendForce::computeDerivatives` (BendForce.h:63-84). -/
noncomputable def bendForce (b1 b2 : Vec) : BendForce :=
  let b1Abs := vabs b1
  let u1 : Vec := fun i => b1 i / b1Abs
  let b2Abs := vabs b2
  let u2 : Vec := fun i => b2 i / b2Abs
  let c := dot u1 u2
  { cosTheta := c
    d1 := fun i => (u2 i - u1 i * c) / b1Abs
    d2 := fun i => (u1 i - u2 i * c) / b2Abs }

/-! ## CosineAngle -/

/-- `CosineAngle::energy` (CosineAngle.h:183-184). -/
def cosineEnergy (kappa : ℝ) (c : ℝ) : ℝ := kappa * (1 - c)

/-- Common part of `CosineAngle::force` and `CosineSqAngle::force` (CosineAngle.h:196-213,
CosineSqAngle.h:201-218): `k c` is the factor that multiplies `1/r`. -/
noncomputable def forceWith (k : ℝ → ℝ → ℝ) (R1 R2 : Vec) : Vec × Vec :=
  let r1 := vabs R1
  let r2 := vabs R2
  let u1 : Vec := fun i => R1 i / r1
  let u2 : Vec := fun i => R2 i / r2
  let c := dot u1 u2
  (fun i => (u1 i * c - u2 i) * k c r1, fun i => (u2 i * c - u1 i) * k c r2)

/-- `CosineAngle::force` (CosineAngle.h:192-213). -/
noncomputable def cosineForce (kappa : ℝ) : Vec → Vec → Vec × Vec := forceWith fun _ r => kappa / r

/-! ## CosineSqAngle -/

/-- `CosineSqAngle` (CosineSqAngle.h:170-175). -/
structure CosSq where
  kappa : ℤ → ℝ
  theta0 : ℤ → ℝ
  cosTheta0 : ℤ → ℝ
  n : ℤ

/-- `readParameters` (CosineSqAngle.cpp:75-88); `UTIL_CHECK` throws. -/
noncomputable def CosSq.read (s : CosSq) (kappa theta0 : ℤ → ℝ) : Except Err CosSq :=
  if s.n > 0 then
    let t := fill1 s.n theta0 s.theta0
    .ok { s with kappa := fill1 s.n kappa s.kappa, theta0 := t
                 cosTheta0 := fill1 s.n (fun i => Real.cos (t i / 180 * Real.pi)) s.cosTheta0 }
  else .error .throw

/-- `set` (CosineSqAngle.cpp:172-182): `cosTheta0_` is not updated. -/
def CosSq.set (s : CosSq) (name : String) (type : ℤ) (x : ℝ) : Except Err CosSq :=
  if name = "kappa" then
    if 0 ≤ type ∧ type < 4 then .ok { s with kappa := upd1 s.kappa type x } else .error .ub
  else if name = "theta0" then
    if 0 ≤ type ∧ type < 4 then .ok { s with theta0 := upd1 s.theta0 type x } else .error .ub
  else .error .throw

/-- `energy` (CosineSqAngle.h:184-189). -/
noncomputable def CosSq.energy (s : CosSq) (c : ℝ) (type : ℤ) : ℝ :=
  s.kappa type * (c - s.cosTheta0 type) * (c - s.cosTheta0 type) * 0.5

/-- `force` (CosineSqAngle.h:197-218). -/
noncomputable def CosSq.force (s : CosSq) (R1 R2 : Vec) (type : ℤ) : Vec × Vec :=
  forceWith (fun c r => s.kappa type / r * (s.cosTheta0 type - c)) R1 R2

/-! ## HarmonicAngle -/

/-- `HarmonicAngle` (HarmonicAngle.h:170-175); `theta0_` in radians. -/
structure Harmonic where
  kappa : ℤ → ℝ
  theta0 : ℤ → ℝ
  n : ℤ

/-- `readParameters` (HarmonicAngle.cpp:70-83): angles in the file are in degrees. -/
noncomputable def Harmonic.read (s : Harmonic) (kappa theta0 : ℤ → ℝ) : Except Err Harmonic :=
  if s.n > 0 then
    .ok { s with kappa := fill1 s.n kappa s.kappa
                 theta0 := fill1 s.n (fun i => theta0 i * Real.pi / 180) s.theta0 }
  else .error .throw

/-- `set` (HarmonicAngle.cpp:160-170). -/
def Harmonic.set (s : Harmonic) (name : String) (type : ℤ) (x : ℝ) : Except Err Harmonic :=
  if name = "kappa" then
    if 0 ≤ type ∧ type < 4 then .ok { s with kappa := upd1 s.kappa type x } else .error .ub
  else if name = "theta0" then
    if 0 ≤ type ∧ type < 4 then .ok { s with theta0 := upd1 s.theta0 type x } else .error .ub
  else .error .throw

/-- `energy` (HarmonicAngle.h:183-187). -/
noncomputable def Harmonic.energy (s : Harmonic) (c : ℝ) (type : ℤ) : ℝ :=
  let dTheta := Real.arccos c - s.theta0 type
  0.5 * s.kappa type * dTheta * dTheta

/-- `force` (HarmonicAngle.h:195-210). -/
noncomputable def Harmonic.force (s : Harmonic) (b1 b2 : Vec) (type : ℤ) : Vec × Vec :=
  let bend := bendForce b1 b2
  let sn := sinTheta bend.cosTheta
  if sn > 1e-10 then
    let factor := s.kappa type * (s.theta0 type - Real.arccos bend.cosTheta) / sn
    (fun i => bend.d1 i * factor, fun i => bend.d2 i * factor)
  else (fun _ => 0, fun _ => 0)

/-! ## Use by the potential classes, for one angle -/

/-- `cosTheta = dr1.dot(dr2) / sqrt(rsq1 * rsq2)` (mcMd AnglePotentialImpl.h:350, 378; ddMd
AnglePotentialImpl.h:409). -/
noncomputable def cosOf (dr1 dr2 : Vec) : ℝ := dot dr1 dr2 / Real.sqrt (normSq dr1 * normSq dr2)

/-- Increments of the forces on the three atoms (mcMd AnglePotentialImpl.h:416-419, ddMd
AnglePotentialImpl.h:354-363). -/
def atomForces (F : Vec × Vec) : Fin 3 → Vec :=
  ![fun i => F.1 i, fun i => -F.1 i + F.2 i, fun i => -F.2 i]

/-- Contribution of one angle to the stress tensor, before division by the volume
(mcMd AnglePotentialImpl.h:463-466 with stress.h:61-70). -/
def mcStress (F : Vec × Vec) (dr1 dr2 : Vec) (i j : Fin 3) : ℝ :=
  F.1 i * (dr1 j * -1) + F.2 i * (dr2 j * -1)

/-- Contribution on a processor that has `nLocal` of the three atoms
(ddMd AnglePotentialImpl.h:463-469). -/
noncomputable def ddStress (F : Vec × Vec) (dr1 dr2 : Vec) (nLocal : ℤ) (i j : Fin 3) : ℝ :=
  let factor := (-1 / 3 : ℝ) * nLocal
  F.1 i * (dr1 j * factor) + F.2 i * (dr2 j * factor)

/-- Contribution to the energy (ddMd AnglePotentialImpl.h:411-412). -/
noncomputable def ddEnergy (e : ℝ) (nLocal : ℤ) : ℝ := (nLocal : ℝ) * (1 / 3) * e

/-! ## Random angles -/

/-- Acceptance probability of a trial angle in `randomAngle` (CosineAngle.cpp:112-119,
CosineSqAngle.cpp:130-137, HarmonicAngle.cpp:118-125), for trial angles uniform in `[0, π]`. -/
noncomputable def acceptAngle (energy : ℝ → ℝ) (beta thetaMin theta : ℝ) : ℝ :=
  Real.exp (-beta * (energy (Real.cos theta) - energy (Real.cos thetaMin))) *
    Real.cos theta / Real.cos thetaMin

/-- Acceptance probability of a trial cosine in `randomCosineAngle` (CosineAngle.cpp:137-144,
CosineSqAngle.cpp:156-163, HarmonicAngle.cpp:144-151), for trial cosines uniform in `[-1, 1]`. -/
noncomputable def acceptCosine (energy : ℝ → ℝ) (beta cMin c : ℝ) : ℝ :=
  Real.exp (-beta * (energy c - energy cMin))

end Verif.Angle
