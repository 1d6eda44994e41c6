import Verif.Angle.Curve

/-!
# Model of the dihedral interactions

Sources: `src/simp/interaction/dihedral/{Torsion,TorsionForce,CosineDihedral,FourierDihedral}.h`,
the `.cpp` files, and the loops of `src/mcMd/potentials/dihedral/DihedralPotentialImpl.h` and
`src/ddMd/potentials/dihedral/DihedralPotentialImpl.h` for one dihedral. `double` is `ℝ`.
-/

set_option autoImplicit false

namespace Verif.Dihedral

open Verif.Boundary hiding dot
open Verif.Pair Verif.Bond Verif.Angle

/-! ## Torsion and TorsionForce -/

/-- `Torsion::computeAngle` (Torsion.h:74-97): `none` for the error code 1. -/
noncomputable def computeAngle (b1 b2 b3 : Vec) : Option ℝ :=
  let v1 := cross b1 b2
  let d1 := normSq v1
  if d1 < 1e-10 then none else
  let d1 := Real.sqrt d1
  let v2 := cross b2 b3
  let d2 := normSq v2
  if d2 < 1e-10 then none else
  let d2 := Real.sqrt d2
  some (dot v1 v2 / (d1 * d2))

/-- `TorsionForce` (TorsionForce.h:34-63). -/
structure TorsionForce where
  cosPhi : ℝ
  d1 : Vec
  d2 : Vec
  d3 : Vec

/-- `TorsionForce::computeDerivatives` (TorsionForce.h:82-123). -/
noncomputable def computeDerivatives (b1 b2 b3 : Vec) : Option TorsionForce :=
  let u1 := cross b1 b2
  let r1 := normSq u1
  if r1 < 1e-10 then none else
  let r1 := Real.sqrt r1
  let u1 : Vec := fun i => u1 i / r1
  let u2 := cross b2 b3
  let r2 := normSq u2
  if r2 < 1e-10 then none else
  let r2 := Real.sqrt r2
  let u2 : Vec := fun i => u2 i / r2
  let c := dot u1 u2
  let t1 : Vec := fun i => (u1 i * -c + u2 i) * (1 / r1)
  let t2 : Vec := fun i => (u2 i * -c + u1 i) * (1 / r2)
  let d1 := cross b2 t1
  let d3 := cross t2 b2
  let d2 := cross t1 b1
  let t1 := cross b3 t2
  some { cosPhi := c, d1 := d1, d2 := fun i => d2 i + t1 i, d3 := d3 }

/-! ## Interactions -/

/-- Common form of the two `energy` functions, given the function of the cosine. -/
noncomputable def energyWith (E : ℝ → ℝ) (b1 b2 b3 : Vec) : ℝ :=
  match computeAngle b1 b2 b3 with
  | some c => E c
  | none => 0

/-- Common form of the two `force` functions, given the derivative. -/
noncomputable def forceWith (g : ℝ → ℝ) (b1 b2 b3 : Vec) : Fin 3 → Vec :=
  match computeDerivatives b1 b2 b3 with
  | some t => ![fun i => t.d1 i * g t.cosPhi, fun i => t.d2 i * g t.cosPhi, fun i => t.d3 i * g t.cosPhi]
  | none => fun _ _ => 0

/-- `CosineDihedral::energy` (CosineDihedral.h:163-174). -/
noncomputable def cosineEnergy (kappa : ℝ) : Vec → Vec → Vec → ℝ := energyWith fun c => kappa * (1 + c)

/-- `CosineDihedral::force` (CosineDihedral.h:184-202). -/
noncomputable def cosineForce (kappa : ℝ) : Vec → Vec → Vec → Fin 3 → Vec := forceWith fun _ => kappa

/-- `FourierDihedral::CoeffList` (FourierDihedral.h:167-207). -/
structure Coeff where
  k0 : ℝ
  k1 : ℝ
  k2 : ℝ
  k3 : ℝ
  k4 : ℝ
  a0 : ℝ
  a1 : ℝ
  a2 : ℝ
  a3 : ℝ
  a4 : ℝ
  g2 : ℝ
  g3 : ℝ
  g4 : ℝ

/-- Default constructor (FourierDihedral.h:192-207). -/
def Coeff.zero : Coeff := ⟨0, 0, 0, 0, 0, 0, 0, 0, 0, 0, 0, 0, 0⟩

/-- `CoeffList::init` (FourierDihedral.h:209-220). -/
def Coeff.init (p : Coeff) : Coeff :=
  let a2 := 2 * p.k2 - 8 * p.k4
  let a3 := 4 * p.k3
  let a4 := 8 * p.k4
  { p with a0 := p.k0 - p.k2 + p.k4, a1 := p.k1 - 3 * p.k3, a2 := a2, a3 := a3, a4 := a4
           g2 := 2 * a2, g3 := 3 * a3, g4 := 4 * a4 }

/-- `FourierDihedral` (FourierDihedral.h:148-155); `coeffs` is a `DArray` of `n` elements. -/
structure Fourier where
  coeffs : ℤ → Coeff
  n : ℤ

/-- `setNDihedralType` (FourierDihedral.cpp:84-91), on a new object. -/
def Fourier.setN (_s : Fourier) (n : ℤ) : Except Err Fourier :=
  if n ≤ 0 then .error .throw else .ok { coeffs := fun _ => Coeff.zero, n := n }

/-- `readParameters` (FourierDihedral.cpp:96-105) with the text operator (233-237): the coefficients
`k` are read, then `init` is called. -/
def Fourier.read (s : Fourier) (k : ℤ → Fin 5 → ℝ) : Except Err Fourier :=
  if s.n > 0 then
    .ok { s with coeffs := fun i => if 0 ≤ i ∧ i < s.n then
            Coeff.init { s.coeffs i with k0 := k i 0, k1 := k i 1, k2 := k i 2, k3 := k i 3, k4 := k i 4 }
            else s.coeffs i }
  else .error .throw

/-- Assignment of one element of `coeffs_`. -/
def Fourier.put (s : Fourier) (i : ℤ) (p : Coeff) : Fourier :=
  { s with coeffs := fun k => if k = i then p else s.coeffs k }

/-- `set` (FourierDihedral.cpp:172-193). An index out of range of the array is undefined behaviour
unless assertions are enabled. -/
def Fourier.set (s : Fourier) (name : String) (type : ℤ) (x : ℝ) : Except Err Fourier :=
  if 0 ≤ type ∧ type < s.n then
    let p := s.coeffs type
    if name = "k0" then .ok (s.put type (Coeff.init { p with k0 := x }))
    else if name = "k1" then .ok (s.put type (Coeff.init { p with k1 := x }))
    else if name = "k2" then .ok (s.put type (Coeff.init { p with k2 := x }))
    else if name = "k3" then .ok (s.put type (Coeff.init { p with k3 := x }))
    else if name = "k4" then .ok (s.put type (Coeff.init { p with k4 := x }))
    else .error .throw
  else .error .ub

/-- `get` (FourierDihedral.cpp:198-220). -/
def Fourier.get (s : Fourier) (name : String) (type : ℤ) : Except Err ℝ :=
  if 0 ≤ type ∧ type < s.n then
    let p := s.coeffs type
    if name = "k0" then .ok p.k0 else if name = "k1" then .ok p.k1 else if name = "k2" then .ok p.k2
    else if name = "k3" then .ok p.k3 else if name = "k4" then .ok p.k4 else .error .throw
  else .error .ub

/-- Assignment operator (FourierDihedral.cpp:48-79). -/
def Fourier.assign (old s : Fourier) : Except Err Fourier :=
  if old.n ≠ 0 ∧ old.n ≠ s.n then .error .throw
  else .ok { n := s.n, coeffs := fun i => if 0 ≤ i ∧ i < s.n then
      Coeff.init { old.coeffs i with k0 := (s.coeffs i).k0, k1 := (s.coeffs i).k1, k2 := (s.coeffs i).k2
                                     k3 := (s.coeffs i).k3, k4 := (s.coeffs i).k4 }
      else old.coeffs i }

/-- `FourierDihedral::energy` (FourierDihedral.h:255-270). -/
noncomputable def Fourier.energy (s : Fourier) (b1 b2 b3 : Vec) (type : ℤ) : ℝ :=
  let p := s.coeffs type
  energyWith (fun c => p.a0 + c * (p.a1 + c * (p.a2 + c * (p.a3 + c * p.a4)))) b1 b2 b3

/-- `FourierDihedral::force` (FourierDihedral.h:281-301). -/
noncomputable def Fourier.force (s : Fourier) (b1 b2 b3 : Vec) (type : ℤ) : Fin 3 → Vec :=
  let p := s.coeffs type
  forceWith (fun c => p.a1 + c * (p.g2 + c * (p.g3 + c * p.g4))) b1 b2 b3

/-! ## Use by the potential classes, for one dihedral -/

/-- Increments of the forces on the four atoms (mcMd DihedralPotentialImpl.h:400-405, ddMd
DihedralPotentialImpl.h:406-419). -/
def atomForces (F : Fin 3 → Vec) : Fin 4 → Vec :=
  ![fun i => F 0 i, fun i => -F 0 i + F 1 i, fun i => -F 1 i + F 2 i, fun i => -F 2 i]

/-- Contribution of one dihedral to the stress, before division by the volume
(mcMd DihedralPotentialImpl.h:446-454). -/
def mcStress (F : Fin 3 → Vec) (dr1 dr2 dr3 : Vec) (i j : Fin 3) : ℝ :=
  F 0 i * (dr1 j * -1) + F 1 i * (dr2 j * -1) + F 2 i * (dr3 j * -1)

/-- Contribution to the stress on a processor with `nLocal` of the four atoms, before division by
the volume (ddMd DihedralPotentialImpl.h:528-543). `force` is called with `dr2` as third bond. -/
noncomputable def ddStress (force : Vec → Vec → Vec → Fin 3 → Vec) (dr1 dr2 dr3 : Vec) (nLocal : ℤ)
    (i j : Fin 3) : ℝ :=
  let f := force dr1 dr2 dr2
  let factor := (-0.25 : ℝ) * nLocal
  f 0 i * (dr1 j * factor) + f 1 i * (dr2 j * factor) + f 2 i * (dr3 j * factor)

/-- Contribution to the energy (ddMd DihedralPotentialImpl.h:469-476). -/
noncomputable def ddEnergy (e : ℝ) (nLocal : ℤ) : ℝ := (nLocal : ℝ) * 0.25 * e

end Verif.Dihedral
