import Verif.Boundary.Mono
import Verif.Cpp.Outcome
import Mathlib.Analysis.SpecialFunctions.Trigonometric.Basic
import Mathlib.Analysis.SpecialFunctions.Exp
import Mathlib.MeasureTheory.Integral.Bochner.Set
import Mathlib.MeasureTheory.Measure.Lebesgue.Basic

/-!
# Ewald summation of Coulomb interactions: model

`EwaldInteraction` (simp/interaction/coulomb), `MdEwaldPotential` and `MdCoulombPotential`
(mcMd/potentials/coulomb), and what `MdEwaldPairPotentialImpl` (mcMd/potentials/pair) does with
one pair of atoms.

Simplifications: real numbers for `double`, unbounded integers for `int`.  The loop over species,
molecules and atoms is a list of atoms; an atom is its charge (looked up by type in the code) and
its position.  Growth of `GArray`s is not modelled; an access out of range is `ub`.
-/

set_option autoImplicit false

namespace Verif.Ewald

open Verif.Boundary Verif.Cpp Verif.Cpp.Out

/-- Complementary error function of the C++ library (`erfc`). -/
noncomputable def erfc (x : ℝ) : ℝ :=
  2 / Real.sqrt Real.pi * ∫ t in Set.Ioi x, Real.exp (-t ^ 2)

/-! ## The interaction -/

/-- Members of `EwaldInteraction` (EwaldInteraction.h:176-196). -/
structure Inter where
  epsilon : ℝ
  alpha : ℝ
  rCut : ℝ
  rCutSq : ℝ
  ce : ℝ
  cf : ℝ
  cg : ℝ

/-- `setDerivedConstants` (EwaldInteraction.cpp:137-144). -/
noncomputable def Inter.derive (s : Inter) : Inter :=
  { s with
    rCutSq := s.rCut * s.rCut
    ce := 1 / (4 * Real.pi * s.epsilon)
    cf := 2 * s.alpha / Real.sqrt Real.pi
    cg := -(1 / 4) / (s.alpha * s.alpha) }

/-- `readParameters` (EwaldInteraction.cpp:66-73): three values, then the derived constants. -/
noncomputable def Inter.read (epsilon alpha rCut : ℝ) : Inter :=
  Inter.derive ⟨epsilon, alpha, rCut, 0, 0, 0, 0⟩

/-- `set` (EwaldInteraction.cpp:101-115). -/
noncomputable def Inter.set (s : Inter) (name : String) (x : ℝ) : Out Inter :=
  if name = "epsilon" then .ok (Inter.derive { s with epsilon := x })
  else if name = "alpha" then .ok (Inter.derive { s with alpha := x })
  else if name = "rSpaceCutoff" then .ok (Inter.derive { s with rCut := x })
  else .throw

/-- `rSpaceEnergy` (EwaldInteraction.h:234-240). -/
noncomputable def Inter.rEnergy (s : Inter) (rSq qProduct : ℝ) : ℝ :=
  let r := Real.sqrt rSq
  s.ce * qProduct * erfc (s.alpha * r) / r

/-- `rSpaceForceOverR` (EwaldInteraction.h:245-252). -/
noncomputable def Inter.rForce (s : Inter) (rSq qProduct : ℝ) : ℝ :=
  let r := Real.sqrt rSq
  let x := s.alpha * r
  s.ce * qProduct * (erfc x + s.cf * r * Real.exp (-x * x)) / (r * rSq)

/-- `kSpacePotential` (EwaldInteraction.h:257-259). -/
noncomputable def Inter.kPot (s : Inter) (kSq : ℝ) : ℝ :=
  Real.exp (s.cg * kSq) / (kSq * s.epsilon)

/-! ## The boundary -/

/-- What the potential uses of the boundary: `bravaisBasisVector`, `reciprocalBasisVector`,
`volume` and `transformCartToGen`. -/
structure Box where
  bravais : Fin 3 → Vec
  reciprocal : Fin 3 → Vec
  volume : ℝ
  gen : Vec → Vec

/-- An orthorhombic boundary. -/
noncomputable def ofOrtho (b : Ortho) : Box := ⟨b.bravais, b.reciprocal, b.volume, b.toGen⟩

/-- A monoclinic boundary. -/
noncomputable def ofMono (b : Mono) : Box := ⟨b.bravais, b.reciprocal, b.volume, b.toGen⟩

/-! ## The state -/

/-- One element of `intWaves_`, `ksq_` and `g_`, which always have the same size. -/
structure Wave where
  k : IVec
  ksq : ℝ
  g : ℝ

/-- Members of `MdEwaldPotential` (MdEwaldPotential.h) and of `MdCoulombPotential`
(MdCoulombPotential.h:180-215).  `n0`, `n1`, `n2` are the sizes of `fexp0_`, `fexp1_`, `fexp2_`.
`rSpaceEnergy` is the r-space part of `rSpaceAccumulator_`. -/
structure St where
  inter : Inter
  kCut : ℝ
  waves : List Wave
  base0 : ℤ
  upper0 : ℤ
  base1 : ℤ
  upper1 : ℤ
  base2 : ℤ
  upper2 : ℤ
  n0 : ℕ
  n1 : ℕ
  n2 : ℕ
  hasWaves : Bool
  kSpaceEnergy : Option ℝ
  kSpaceStress : Option (Fin 3 → Fin 3 → ℝ)
  rSpaceEnergy : Option ℝ

/-- `unsetEnergy` (MdCoulombPotential.cpp:72-73). -/
def St.unsetEnergy (s : St) : St := { s with kSpaceEnergy := none }

/-- `unsetWaves` (MdCoulombPotential.cpp:62-67). -/
def St.unsetWaves (s : St) : St :=
  { s with hasWaves := false, kSpaceEnergy := none, kSpaceStress := none }

/-- `set` (MdEwaldPotential.cpp:86-95). -/
noncomputable def St.set (s : St) (name : String) (x : ℝ) : Out St :=
  if name = "kSpaceCutoff" then .ok (St.unsetWaves { s with kCut := x })
  else do
    let i ← s.inter.set name x
    .ok (St.unsetWaves { s with inter := i })

/-! ## Wavevectors -/

/-- Variables changed in the body of the loops of `makeWaves`. -/
structure Acc where
  waves : List Wave
  upper0 : ℤ
  base1 : ℤ
  upper1 : ℤ
  base2 : ℤ
  upper2 : ℤ

/-- Body of the innermost loop once the wavevector is accepted (MdEwaldPotential.cpp:193-205). -/
noncomputable def Acc.add (a : Acc) (i : Inter) (k0 k1 k2 : ℤ) (ksq : ℝ) : Acc :=
  { waves := a.waves ++ [⟨![k0, k1, k2], ksq, i.kPot ksq⟩]
    upper0 := if k0 > a.upper0 then k0 else a.upper0
    base1 := if k1 < a.base1 then k1 else a.base1
    upper1 := if k1 > a.upper1 then k1 else a.upper1
    base2 := if k2 < a.base2 then k2 else a.base2
    upper2 := if k2 > a.upper2 then k2 else a.upper2 }

/-- Loop over `k[2]` (MdEwaldPotential.cpp:187-207), `n` passes from index `k2` on.  `q` is the
wavevector before `q += b2`. -/
noncomputable def loop2 (i : Inter) (cutSq : ℝ) (b2 : Vec) (k0 k1 : ℤ) : ℕ → ℤ → Vec → Acc → Acc
  | 0, _, _, a => a
  | n + 1, k2, q, a =>
    let q := q + b2
    let ksq := normSq q
    let a := if ksq ≤ cutSq then a.add i k0 k1 k2 ksq else a
    loop2 i cutSq b2 k0 k1 n (k2 + 1) q a

/-- Loop over `k[1]` (MdEwaldPotential.cpp:180-208). -/
noncomputable def loop1 (i : Inter) (cutSq : ℝ) (b1 b2 : Vec) (max2 : ℤ) (k0 : ℤ) :
    ℕ → ℤ → Vec → Acc → Acc
  | 0, _, _, a => a
  | n + 1, k1, q1, a =>
    let q1 := q1 + b1
    let mink2 : ℤ := if k0 = 0 ∧ k1 = 0 then 1 else -max2
    let q := ((mink2 - 1 : ℤ) : ℝ) • b2 + q1
    let a := loop2 i cutSq b2 k0 k1 (max2 + 1 - mink2).toNat mink2 q a
    loop1 i cutSq b1 b2 max2 k0 n (k1 + 1) q1 a

/-- Loop over `k[0]` (MdEwaldPotential.cpp:171-209). -/
noncomputable def loop0 (i : Inter) (cutSq : ℝ) (b0 b1 b2 : Vec) (max1 max2 : ℤ) :
    ℕ → ℤ → Vec → Acc → Acc
  | 0, _, _, a => a
  | n + 1, k0, q0, a =>
    let q0 := q0 + b0
    let mink1 : ℤ := if k0 = 0 then 0 else -max1
    let q1 := ((mink1 - 1 : ℤ) : ℝ) • b1 + q0
    let a := loop1 i cutSq b1 b2 max2 k0 (max1 + 1 - mink1).toNat mink1 q1 a
    loop0 i cutSq b0 b1 b2 max1 max2 n (k0 + 1) q0 a

/-- Largest index along one axis (MdEwaldPotential.cpp:140-141). -/
noncomputable def maxIndex (box : Box) (kCut : ℝ) (j : Fin 3) : ℤ :=
  ⌈kCut * Real.sqrt (normSq (box.bravais j)) / (2 * Real.pi)⌉

/-- `makeWaves` (MdEwaldPotential.cpp:125-228). -/
noncomputable def St.makeWaves (box : Box) (s : St) : Out St := do
  let m0 := maxIndex box s.kCut 0
  let m1 := maxIndex box s.kCut 1
  let m2 := maxIndex box s.kCut 2
  check (0 < m0)
  check (0 < m1)
  check (0 < m2)
  let b0 := box.reciprocal 0
  let a := loop0 s.inter (s.kCut * s.kCut) b0 (box.reciprocal 1) (box.reciprocal 2) m1 m2
    (m0 + 1).toNat 0 ((-1 : ℝ) • b0) ⟨[], -m0, m1, -m1, m2, -m2⟩
  check (0 < a.waves.length)
  check (0 < a.upper0 - 0 + 1)
  check (0 < a.upper1 - a.base1 + 1)
  check (0 < a.upper2 - a.base2 + 1)
  .ok { s with
    waves := a.waves
    base0 := 0, upper0 := a.upper0
    base1 := a.base1, upper1 := a.upper1
    base2 := a.base2, upper2 := a.upper2
    n0 := (a.upper0 - 0 + 1).toNat
    n1 := (a.upper1 - a.base1 + 1).toNat
    n2 := (a.upper2 - a.base2 + 1).toNat
    hasWaves := true }

/-! ## Charge density -/

/-- Charge and position. -/
structure Atom where
  q : ℝ
  r : Vec

/-- What one atom adds to one Fourier mode (MdEwaldPotential.cpp:268-275). -/
noncomputable def phasor (box : Box) (a : Atom) (w : Wave) : ℂ :=
  let rg := box.gen a.r
  let dotqr := (rg 0 * (w.k 0 : ℝ) + rg 1 * (w.k 1 : ℝ) + rg 2 * (w.k 2 : ℝ)) * (2 * Real.pi)
  ⟨a.q * Real.cos dotqr, a.q * Real.sin dotqr⟩

/-- The loop over atoms and waves (MdEwaldPotential.cpp:258-280). -/
noncomputable def charges (box : Box) (waves : List Wave) (atoms : List Atom) : List ℂ :=
  atoms.foldl (fun rho a => List.zipWith (fun z w => z + phasor box a w) rho waves)
    (waves.map fun _ => 0)

/-- `computeKSpaceCharge` (MdEwaldPotential.cpp:233-282): the state, with waves made if they were
not there, and `rho_`. -/
noncomputable def St.charge (box : Box) (atoms : List Atom) (s : St) : Out (St × List ℂ) := do
  let s ← if s.hasWaves then .ok s else s.makeWaves box
  .ok (s, charges box s.waves atoms)

/-! ## Forces -/

/-- The table of exponentials along one axis (MdEwaldPotential.cpp:330-346): the first element is
`exp(2πi x base)`, each next one the previous one times `exp(2πi x)`. -/
noncomputable def fexp (x : ℝ) (base : ℤ) (n : ℕ) : List ℂ :=
  let de := Complex.exp (2 * Real.pi * Complex.I * x)
  List.iterate (fun z => z * de) (Complex.exp (2 * Real.pi * Complex.I * x * base)) n

/-- Element access. -/
noncomputable def at? (l : List ℂ) (i : ℤ) : Out ℂ :=
  if 0 ≤ i then match l[i.toNat]? with
    | some z => .ok z
    | none => .ub
  else .ub

/-- Contribution of one wave to the generalized force (MdEwaldPotential.cpp:350-359). -/
noncomputable def waveForce (s : St) (f0 f1 f2 : List ℂ) (w : Wave) (rho : ℂ) : Out Vec := do
  let e0 ← at? f0 (w.k 0 - s.base0)
  let e1 ← at? f1 (w.k 1 - s.base1)
  let e2 ← at? f2 (w.k 2 - s.base2)
  let e := e0 * e1 * e2
  .ok fun j => (w.k j : ℝ) * (w.g * (e.re * rho.im - e.im * rho.re))

/-- The loop over waves (MdEwaldPotential.cpp:348-360). -/
noncomputable def waveLoop (s : St) (f0 f1 f2 : List ℂ) : List (Wave × ℂ) → Vec → Out Vec
  | [], fg => .ok fg
  | (w, rho) :: l, fg => do
    let df ← waveForce s f0 f1 f2 w rho
    waveLoop s f0 f1 f2 l (fg + df)

/-- Force on one atom, added to `f` (MdEwaldPotential.cpp:322-369). -/
noncomputable def atomForce (box : Box) (s : St) (rho : List ℂ) (a : Atom) (f : Vec) : Out Vec :=
  if |a.q| > 1 / 10 ^ 10 then do
    let rg := box.gen a.r
    let fg ← waveLoop s (fexp (rg 0) s.base0 s.n0) (fexp (rg 1) s.base1 s.n1)
      (fexp (rg 2) s.base2 s.n2) (s.waves.zip rho) (fun _ => 0)
    let fg : Vec := fun j => fg j * (-2 * a.q / box.volume)
    .ok (f + fg 0 • box.reciprocal 0 + fg 1 • box.reciprocal 1 + fg 2 • box.reciprocal 2)
  else .ok f

/-- The loop over atoms; `forces` holds the force of each atom before and after. -/
noncomputable def forceLoop (box : Box) (s : St) (rho : List ℂ) : List (Atom × Vec) → Out (List Vec)
  | [] => .ok []
  | (a, f) :: l => do
    let f ← atomForce box s rho a f
    let fs ← forceLoop box s rho l
    .ok (f :: fs)

/-- `addForces` (MdEwaldPotential.cpp:287-373). -/
noncomputable def St.addForces (box : Box) (atoms : List Atom) (forces : List Vec) (s : St) :
    Out (St × List Vec) := do
  let (s, rho) ← s.charge box atoms
  let fs ← forceLoop box s rho (atoms.zip forces)
  .ok (s, fs)

/-! ## Energy and stress -/

/-- `computeEnergy` (MdEwaldPotential.cpp:378-424). -/
noncomputable def St.computeEnergy (box : Box) (atoms : List Atom) (s : St) : Out St := do
  let (s, rho) ← s.charge box atoms
  let energy := (s.waves.zip rho).foldl
    (fun e p => e + (p.2.re * p.2.re + p.2.im * p.2.im) * p.1.g) 0
  let energy := energy / box.volume
  let self := atoms.foldl (fun e a => e + a.q * a.q) 0
  let self := self * (s.inter.alpha / (4 * Real.sqrt Real.pi * Real.pi * s.inter.epsilon))
  .ok { s with kSpaceEnergy := some (energy - self) }

/-- The Kronecker symbol, `Tensor::Identity`. -/
def delta (i j : Fin 3) : ℝ := if i = j then 1 else 0

/-- What one wave adds to the stress (MdEwaldPotential.cpp:450-467). -/
noncomputable def waveStress (box : Box) (ca : ℝ) (w : Wave) (rho : ℂ) (i j : Fin 3) : ℝ :=
  let qv := (w.k 0 : ℝ) • box.reciprocal 0 + (w.k 1 : ℝ) • box.reciprocal 1 +
    (w.k 2 : ℝ) • box.reciprocal 2
  (delta i j + qv i * qv j * (-2 * (ca + 1 / w.ksq))) * (w.g * (rho.re * rho.re + rho.im * rho.im))

/-- `computeStress` (MdEwaldPotential.cpp:430-474). -/
noncomputable def St.computeStress (box : Box) (atoms : List Atom) (s : St) : Out St := do
  let (s, rho) ← s.charge box atoms
  let ca := 1 / 4 / (s.inter.alpha * s.inter.alpha)
  let t : Fin 3 → Fin 3 → ℝ := (s.waves.zip rho).foldl
    (fun t p => fun i j => t i j + waveStress box ca p.1 p.2 i j) (fun _ _ => 0)
  .ok { s with kSpaceStress := some fun i j => t i j / (box.volume * box.volume) }

/-- `kSpaceEnergy` (MdCoulombPotential.cpp:78-84). -/
noncomputable def St.getKSpaceEnergy (box : Box) (atoms : List Atom) (s : St) : Out (St × ℝ) := do
  let s ← if s.kSpaceEnergy.isSome then .ok s else s.computeEnergy box atoms
  match s.kSpaceEnergy with
  | some e => .ok (s, e)
  | none => .throw

/-! ## One pair of atoms -/

/-- Energies that `MdEwaldPairPotentialImpl::computeEnergy` adds for a pair at square distance
`rsq` (MdEwaldPairPotentialImpl.h:457-471): non-Coulomb part and r-space Coulomb part.  `pc`, `pe`:
square of the cutoff and energy of the pair potential for the two types. -/
noncomputable def pairEnergies (s : Inter) (pc : ℝ) (pe : ℝ → ℝ) (qi qj rsq : ℝ) : ℝ × ℝ :=
  if rsq < s.rCutSq then (if rsq < pc then pe rsq else 0, s.rEnergy rsq (qi * qj)) else (0, 0)

/-- Factor of the separation in the force that `MdEwaldPairPotentialImpl::addForces` adds
(MdEwaldPairPotentialImpl.h:401-415). -/
noncomputable def pairForce (s : Inter) (pc : ℝ) (pf : ℝ → ℝ) (qi qj rsq : ℝ) : ℝ :=
  if rsq < s.rCutSq then
    let f := s.rForce rsq (qi * qj)
    if rsq < pc then f + pf rsq else f
  else 0

/-- Loop of `MdEwaldPairPotentialImpl::computeEnergy` over pairs, each given by the product of the
charges and the square distance (MdEwaldPairPotentialImpl.h:452-476), the r-space part. -/
noncomputable def rSum (s : Inter) (pairs : List (ℝ × ℝ)) : ℝ :=
  pairs.foldl (fun e p => if p.2 < s.rCutSq then e + s.rEnergy p.2 p.1 else e) 0

/-- `energy` (MdCoulombPotential.cpp:95-101) with `EwaldRSpaceAccumulator::rSpaceEnergy`, which
computes the r-space energy only if it is not set. -/
noncomputable def St.energy (box : Box) (atoms : List Atom) (pairs : List (ℝ × ℝ)) (s : St) :
    Out (St × ℝ) := do
  let (s, k) ← s.getKSpaceEnergy box atoms
  let r := s.rSpaceEnergy.getD (rSum s.inter pairs)
  .ok ({ s with rSpaceEnergy := some r }, k + r)

end Verif.Ewald
