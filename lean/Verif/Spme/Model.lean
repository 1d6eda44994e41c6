import Verif.Ewald.Model
import Mathlib.Algebra.BigOperators.Pi

/-!
# Smooth particle mesh Ewald summation: model

`MdSpmePotential` (mcMd/potentials/coulomb).

Simplifications: real numbers for `double`.  The transforms of the FFTW library are the sums that
define them.  A `GridArray` is a function of three indices; an access out of range is `ub`.  Loops
that set or add up all elements of a grid, one independently of the other, are functions and finite
sums.  `rhoR_` is complex in the code, but its imaginary parts are zero; here it is real.  Assertions
in `shiftGen` that fail are `ub`.  Atoms are as in `Verif.Ewald.Model`.
-/

set_option autoImplicit false

namespace Verif.Spme

open Verif.Boundary Verif.Cpp Verif.Cpp.Out Verif.Ewald

/-- `basisSpline` (MdSpmePotential.cpp:362-376). -/
noncomputable def basisSpline (x : ℝ) : ℝ :=
  if 0 < x ∧ x < 1 then
    1 / 24 * x * x * x * x
  else if 1 ≤ x ∧ x < 2 then
    -5 / 24 + (5 / 6 + (-5 / 4 + (5 / 6 - 1 / 6 * x) * x) * x) * x
  else if 2 ≤ x ∧ x < 3 then
    155 / 24 + (-25 / 2 + (35 / 4 + (-5 / 2 + 1 / 4 * x) * x) * x) * x
  else if 3 ≤ x ∧ x < 4 then
    -655 / 24 + (65 / 2 + (-55 / 4 + (5 / 2 - 1 / 6 * x) * x) * x) * x
  else if 4 ≤ x ∧ x < 5 then
    625 / 24 + (-125 / 6 + (25 / 4 + (-5 / 6 + 1 / 24 * x) * x) * x) * x
  else 0

/-- Members of `MdSpmePotential` (MdSpmePotential.h:160-205): `vec`, `sq` and `g` are `vecWaves_`,
`sqWaves_` and `g_`.  `order_` is 5 (MdSpmePotential.cpp:48). -/
structure St where
  inter : Inter
  dim : Fin 3 → ℕ
  vec : IVec → Vec
  sq : IVec → ℝ
  g : IVec → ℝ
  hasWaves : Bool
  kSpaceEnergy : Option ℝ
  kSpaceStress : Option (Fin 3 → Fin 3 → ℝ)

/-- The positions of the grid. -/
noncomputable def grid (dim : Fin 3 → ℕ) : Finset IVec := Fintype.piFinset fun i => Finset.Ico 0 (dim i : ℤ)

/-! ## Waves -/

/-- `bfactor` (MdSpmePotential.cpp:270-286).  The argument `m` is an integer; `dim / 2` is integer
division. -/
noncomputable def bfactor (dim : ℕ) (m : ℤ) : ℝ :=
  if m = (dim / 2 : ℕ) then 0
  else
    let denom : ℂ := ∑ k ∈ Finset.range 4,
      (basisSpline (k + 1) : ℂ) * Complex.exp (2 * Real.pi * Complex.I * m * k / dim)
    Complex.normSq (Complex.exp (2 * Real.pi * Complex.I * 4 * m / dim) / denom)

/-- The signed index (MdSpmePotential.cpp:238, 243, 249). -/
def signed (dim : ℕ) (i : ℤ) : ℤ := if i ≤ (dim / 2 : ℕ) then i else i - dim

/-- The wavevector of a grid position (MdSpmePotential.cpp:236-253). -/
noncomputable def gridWave (box : Box) (dim : Fin 3 → ℕ) (pos : IVec) : Vec :=
  let q0 := (signed (dim 0) (pos 0) : ℝ) • box.reciprocal 0
  let q1 := (signed (dim 1) (pos 1) : ℝ) • box.reciprocal 1 + q0
  (signed (dim 2) (pos 2) : ℝ) • box.reciprocal 2 + q1

/-- The influence function at a grid position (MdSpmePotential.cpp:254-263). -/
noncomputable def influence (box : Box) (i : Inter) (dim : Fin 3 → ℕ) (pos : IVec) : ℝ :=
  let qSq := normSq (gridWave box dim pos)
  if qSq > 1 / 10 ^ 10 then
    bfactor (dim 0) (pos 0) * bfactor (dim 1) (pos 1) * bfactor (dim 2) (pos 2) * i.kPot qSq
  else 0

/-- `makeWaves` and `computeWaves` (MdSpmePotential.cpp:127-139, 218-265). -/
noncomputable def St.makeWaves (box : Box) (s : St) : St :=
  { s with
    vec := gridWave box s.dim
    sq := fun pos => normSq (gridWave box s.dim pos)
    g := influence box s.inter s.dim
    hasWaves := true }

/-! ## Charges on the grid -/

/-- Scaled position in the primary cell (MdSpmePotential.cpp:318-319, 428-429). -/
noncomputable def scaled (box : Box) (r : Vec) : Out Vec :=
  open Classical in
  if ∀ i, 0 ≤ shiftGen (box.gen r) i ∧ shiftGen (box.gen r) i < 1 then .ok (shiftGen (box.gen r))
  else .ub

/-- Grid indices and weights along one axis (MdSpmePotential.cpp:322, 329-333, and likewise for the
other axes and in `addForces`). -/
noncomputable def stencil (dim : ℕ) (x : ℝ) : List (ℤ × ℝ) :=
  (List.range 5).map fun i : ℕ =>
    let img : ℤ := ⌊x * dim⌋ + i - (5 - 1)
    (if img < 0 then img + dim else img, basisSpline (x * dim - img))

/-- The three nested loops over grid positions near an atom, with the product of the weights. -/
noncomputable def stencil3 (dim : Fin 3 → ℕ) (x : Vec) : List (IVec × ℝ) :=
  (stencil (dim 0) (x 0)).flatMap fun a => (stencil (dim 1) (x 1)).flatMap fun b =>
    (stencil (dim 2) (x 2)).map fun c => (![a.1, b.1, c.1], a.2 * b.2 * c.2)

/-- Addition of the charge of an atom to the grid (MdSpmePotential.cpp:347-350). -/
noncomputable def spread (dim : Fin 3 → ℕ) (q : ℝ) : List (IVec × ℝ) → (IVec → ℝ) → Out (IVec → ℝ)
  | [], rho => .ok rho
  | (k, w) :: l, rho =>
    if k ∈ grid dim then spread dim q l (Function.update rho k (rho k + q * w)) else .ub

/-- The loop over atoms of `assignCharges` (MdSpmePotential.cpp:309-356). -/
noncomputable def assignLoop (box : Box) (dim : Fin 3 → ℕ) : List Atom → (IVec → ℝ) → Out (IVec → ℝ)
  | [], rho => .ok rho
  | a :: l, rho => do
    let x ← scaled box a.r
    let rho ← spread dim a.q (stencil3 dim x) rho
    assignLoop box dim l rho

/-- `assignCharges` (MdSpmePotential.cpp:291-357): the state, with waves made if they were not
there, and `rhoR_`. -/
noncomputable def St.assignCharges (box : Box) (atoms : List Atom) (s : St) : Out (St × (IVec → ℝ)) := do
  let s := if s.hasWaves then s else s.makeWaves box
  let rho ← assignLoop box s.dim atoms (fun _ => 0)
  .ok (s, rho)

/-! ## Fourier transforms -/

/-- Phase of a grid position and a wave. -/
noncomputable def phase (dim : Fin 3 → ℕ) (k n : IVec) : ℂ :=
  2 * Real.pi * Complex.I * ((k 0 * n 0 : ℂ) / dim 0 + (k 1 * n 1 : ℂ) / dim 1 + (k 2 * n 2 : ℂ) / dim 2)

/-- `fftw_execute(forward_plan)`: transform from `rhoR_` to `rhoK_`. -/
noncomputable def forward (dim : Fin 3 → ℕ) (rho : IVec → ℝ) (k : IVec) : ℂ :=
  ∑ n ∈ grid dim, (rho n : ℂ) * Complex.exp (-phase dim k n)

/-- `fftw_execute` of a backward plan. -/
noncomputable def backward (dim : Fin 3 → ℕ) (f : IVec → ℂ) (n : IVec) : ℂ :=
  ∑ k ∈ grid dim, f k * Complex.exp (phase dim k n)

/-! ## Forces -/

/-- Fields on the grid (MdSpmePotential.cpp:387-400). -/
noncomputable def field (box : Box) (s : St) (rhoK : IVec → ℂ) (c : Fin 3) : IVec → ℂ :=
  backward s.dim fun k => Complex.I / box.volume * (s.vec k c : ℂ) * rhoK k * (s.g k : ℂ)

/-- Interpolation of the field at an atom (MdSpmePotential.cpp:437-470). -/
noncomputable def interp (dim : Fin 3 → ℕ) (f : Fin 3 → IVec → ℂ) : List (IVec × ℝ) → Vec → Out Vec
  | [], v => .ok v
  | (k, w) :: l, v =>
    if k ∈ grid dim then interp dim f l (fun c => v c + w * (f c k).re) else .ub

/-- Force on one atom, added to `v` (MdSpmePotential.cpp:420-473). -/
noncomputable def atomForce (box : Box) (dim : Fin 3 → ℕ) (f : Fin 3 → IVec → ℂ) (a : Atom) (v : Vec) :
    Out Vec :=
  if |a.q| > 1 / 10 ^ 10 then do
    let x ← scaled box a.r
    let e ← interp dim f (stencil3 dim x) 0
    .ok (v + (-1 * a.q) • e)
  else .ok v

/-- The loop over atoms of `addForces`. -/
noncomputable def forceLoop (box : Box) (dim : Fin 3 → ℕ) (f : Fin 3 → IVec → ℂ) :
    List (Atom × Vec) → Out (List Vec)
  | [] => .ok []
  | (a, v) :: l => do
    let v ← atomForce box dim f a v
    let vs ← forceLoop box dim f l
    .ok (v :: vs)

/-- `addForces` (MdSpmePotential.cpp:381-477). -/
noncomputable def St.addForces (box : Box) (atoms : List Atom) (forces : List Vec) (s : St) :
    Out (St × List Vec) := do
  let (s, rho) ← s.assignCharges box atoms
  let fs ← forceLoop box s.dim (field box s (forward s.dim rho)) (atoms.zip forces)
  .ok (s, fs)

/-! ## Energy and stress -/

/-- `computeEnergy` (MdSpmePotential.cpp:482-519). -/
noncomputable def St.computeEnergy (box : Box) (atoms : List Atom) (s : St) : Out St := do
  let (s, rho) ← s.assignCharges box atoms
  let energy := (∑ k ∈ grid s.dim, s.g k * Complex.normSq (forward s.dim rho k)) / (2 * box.volume)
  let self := atoms.foldl (fun e a => e + a.q * a.q) 0
  let self := self * (s.inter.alpha / (4 * Real.sqrt Real.pi * Real.pi * s.inter.epsilon))
  .ok { s with kSpaceEnergy := some (energy - self) }

/-- What one wave adds to the stress (MdSpmePotential.cpp:538-548). -/
noncomputable def waveStress (ca : ℝ) (s : St) (rhoK : IVec → ℂ) (k : IVec) (i j : Fin 3) : ℝ :=
  if s.sq k > 1 / 10 ^ 10 then
    (delta i j + s.vec k i * s.vec k j * (-2 * (ca + 1 / s.sq k))) *
      (s.g k * Complex.normSq (rhoK k))
  else 0

/-- `computeStress` (MdSpmePotential.cpp:524-558). -/
noncomputable def St.computeStress (box : Box) (atoms : List Atom) (s : St) : Out St := do
  let (s, rho) ← s.assignCharges box atoms
  let ca := 1 / 4 / (s.inter.alpha * s.inter.alpha)
  .ok { s with
    kSpaceStress := some fun i j =>
      (∑ k ∈ grid s.dim, waveStress ca s (forward s.dim rho) k i j) / (2 * box.volume * box.volume) }

end Verif.Spme
