import Mathlib.Analysis.Real.Sqrt
import Mathlib.Analysis.Real.Pi.Bounds

/-!
# Model of the periodic boundaries

Sources: `src/simp/boundary/OrthoRegion.{h,cpp}`,
`src/simp/boundary/OrthorhombicBoundary.{h,cpp}`,
`src/simp/boundary/MonoclinicBoundary.{h,cpp}`.

`double` is `ℝ`, `Vector` is `Fin 3 → ℝ`, `IntVector` is `Fin 3 → ℤ`.
Loops over `i < Dimension` act on each component separately and are written
`fun i => …`.
-/

namespace Verif.Boundary

/-- `Util::Vector`. -/
abbrev Vec := Fin 3 → ℝ

/-- `Util::IntVector`. -/
abbrev IVec := Fin 3 → ℤ

/-- The values of `LatticeSystem` used here (`src/simp/crystal/LatticeSystem.h`). -/
inductive Lattice where
  | cubic | tetragonal | orthorhombic | monoclinic | triclinic | rhombohedral | hexagonal
  deriving DecidableEq

/-! ## Orthorhombic boundary -/

/-- Members of `OrthoRegion` (OrthoRegion.h:32-45) and `OrthorhombicBoundary`
(OrthorhombicBoundary.h:325-346). -/
structure Ortho where
  minima : Vec
  maxima : Vec
  lengths : Vec
  half : Vec
  volume : ℝ
  bravais : Fin 3 → Vec
  reciprocal : Fin 3 → Vec
  inv : Vec
  minLength : ℝ
  lattice : Lattice

/-- `minLength_ = lengths_[0]; for i = 1, 2: if (lengths_[i] < minLength_) …`
(OrthorhombicBoundary.cpp:90-95, MonoclinicBoundary.cpp:92-97). -/
noncomputable def minOf (l : Vec) : ℝ :=
  let m0 := l 0
  let m1 := if l 1 < m0 then l 1 else m0
  if l 2 < m1 then l 2 else m1

/-- Replace one component of a vector: `v[i] = x`. -/
def setc (v : Vec) (i : Fin 3) (x : ℝ) : Vec := Function.update v i x

/-- The default constructors (OrthoRegion.cpp:23-32 and
OrthorhombicBoundary.cpp:25-42). -/
noncomputable def Ortho.default : Ortho :=
  { minima := fun _ => 0
    maxima := fun _ => 1
    lengths := fun _ => 1
    half := fun _ => 1 / 2
    volume := 1
    bravais := fun i => setc (fun _ => 0) i 1
    reciprocal := fun i => setc (fun _ => 0) i (2 * Real.pi / 1)
    inv := fun _ => 1 / 1
    minLength := minOf (fun _ => 1)
    lattice := .orthorhombic }

/-- `OrthorhombicBoundary::reset` (OrthorhombicBoundary.cpp:81-97) including
`OrthoRegion::resetRegion` (OrthoRegion.cpp:37-45).  The off-diagonal elements
of the basis vectors are left as they were. -/
noncomputable def Ortho.reset (b : Ortho) : Ortho :=
  let lengths : Vec := fun i => b.maxima i - b.minima i
  { b with
    lengths := lengths
    half := fun i => 1 / 2 * lengths i
    volume := lengths 0 * lengths 1 * lengths 2
    inv := fun i => 1 / lengths i
    bravais := fun i => setc (b.bravais i) i (lengths i)
    reciprocal := fun i => setc (b.reciprocal i) i (2 * Real.pi / lengths i)
    minLength := minOf lengths }

/-- `OrthorhombicBoundary::setOrthorhombic` (OrthorhombicBoundary.cpp:47-52). -/
noncomputable def Ortho.setOrthorhombic (b : Ortho) (l : Vec) : Ortho :=
  Ortho.reset { b with maxima := l, lattice := .orthorhombic }

/-- `OrthorhombicBoundary::setTetragonal` (OrthorhombicBoundary.cpp:57-64). -/
noncomputable def Ortho.setTetragonal (b : Ortho) (a bc : ℝ) : Ortho :=
  Ortho.reset { b with maxima := ![a, bc, bc], lattice := .tetragonal }

/-- `OrthorhombicBoundary::setCubic` (OrthorhombicBoundary.cpp:69-76). -/
noncomputable def Ortho.setCubic (b : Ortho) (a : ℝ) : Ortho :=
  Ortho.reset { b with maxima := ![a, a, a], lattice := .cubic }

/-- One component of `shift(Vector&)` (OrthorhombicBoundary.h:433-440); the
second value is the change of the shift counter in
`shift(Vector&, IntVector&)` (OrthorhombicBoundary.h:450-459). -/
noncomputable def shift1 (lo hi len r : ℝ) : ℝ × ℤ :=
  if r ≥ hi then (r - len, 1)
  else if r < lo then (r + len, -1)
  else (r, 0)

/-- `shift(Vector& r)` (OrthorhombicBoundary.h:430-442). -/
noncomputable def Ortho.shift (b : Ortho) (r : Vec) : Vec :=
  fun i => (shift1 (b.minima i) (b.maxima i) (b.lengths i) (r i)).1

/-- `shift(Vector& r, IntVector& shift)` (OrthorhombicBoundary.h:447-461). -/
noncomputable def Ortho.shiftI (b : Ortho) (r : Vec) (s : IVec) : Vec × IVec :=
  (fun i => (shift1 (b.minima i) (b.maxima i) (b.lengths i) (r i)).1,
   fun i => s i + (shift1 (b.minima i) (b.maxima i) (b.lengths i) (r i)).2)

/-- `applyShift(Vector &r, int i, int t)` (OrthorhombicBoundary.h:466-467). -/
noncomputable def Ortho.applyShift (b : Ortho) (r : Vec) (i : Fin 3) (t : ℤ) : Vec :=
  setc r i (r i + t * b.lengths i)

/-- `shiftGen(Vector& r)` and its counting variant
(OrthorhombicBoundary.h:472-504, identical in MonoclinicBoundary.h:495-527). -/
noncomputable def shiftGen (r : Vec) : Vec := fun i => (shift1 0 1 1 (r i)).1

/-- Counting variant of `shiftGen` (OrthorhombicBoundary.h:489-504). -/
noncomputable def shiftGenI (r : Vec) (s : IVec) : Vec × IVec :=
  (fun i => (shift1 0 1 1 (r i)).1, fun i => s i + (shift1 0 1 1 (r i)).2)

/-- The body of the loops of the three `distanceSq` functions for one component
(OrthorhombicBoundary.h:516-528, 543-551, 566-574): minimum image separation
and the `translate` value. -/
noncomputable def image1 (half len dr : ℝ) : ℝ × ℤ :=
  if |dr| > half then
    if dr > 0 then (dr - len, -1) else (dr + len, 1)
  else (dr, 0)

/-- The separation computed by `distanceSq(r1, r2, dr)`
(OrthorhombicBoundary.h:561-577). -/
noncomputable def Ortho.separation (b : Ortho) (r1 r2 : Vec) : Vec :=
  fun i => (image1 (b.half i) (b.lengths i) (r1 i - r2 i)).1

/-- The `translate` vector of `distanceSq(r1, r2, translate)`
(OrthorhombicBoundary.h:509-532). -/
noncomputable def Ortho.translate (b : Ortho) (r1 r2 : Vec) : IVec :=
  fun i => (image1 (b.half i) (b.lengths i) (r1 i - r2 i)).2

/-- `distanceSq` (OrthorhombicBoundary.h:509-577); the three overloads compute
the same value. -/
noncomputable def Ortho.distanceSq (b : Ortho) (r1 r2 : Vec) : ℝ :=
  let dr := b.separation r1 r2
  dr 0 * dr 0 + dr 1 * dr 1 + dr 2 * dr 2

/-- `transformCartToGen` (OrthorhombicBoundary.h:588-595). -/
noncomputable def Ortho.toGen (b : Ortho) (r : Vec) : Vec := fun i => r i * b.inv i

/-- `transformGenToCart` (OrthorhombicBoundary.h:600-607). -/
noncomputable def Ortho.toCart (b : Ortho) (r : Vec) : Vec := fun i => r i * b.lengths i

/-- `isMinImageCart` (OrthorhombicBoundary.h:626-635). -/
def Ortho.isMinImageCart (b : Ortho) (dr : Vec) : Prop := ∀ i, ¬ |dr i| > b.half i

/-- `isMinImageGen` (OrthorhombicBoundary.h:612-621). -/
def isMinImageGen (dr : Vec) : Prop := ∀ i, ¬ |dr i| > 1 / 2

/-! ## Monoclinic boundary -/

/-- Members of `MonoclinicBoundary` (MonoclinicBoundary.h:280-328). -/
structure Mono where
  minima : Vec
  maxima : Vec
  l : Vec
  inv : Vec
  half : Vec
  d : ℝ
  lengths : Vec
  volume : ℝ
  c3 : ℝ
  e : ℝ
  minLength : ℝ
  bravais : Fin 3 → Vec
  reciprocal : Fin 3 → Vec

/-- Default constructor (MonoclinicBoundary.cpp:23-45). -/
noncomputable def Mono.default : Mono :=
  { minima := fun _ => 0
    maxima := fun _ => 1
    l := fun _ => 1
    inv := fun _ => 1
    half := fun _ => 1 / 2
    d := 0
    lengths := fun _ => 1
    volume := 1
    c3 := 0
    e := 1
    minLength := 1
    bravais := fun i => setc (fun _ => 0) i 1
    reciprocal := fun i => setc (fun _ => 0) i (2 * Real.pi / 1) }

/-- `MonoclinicBoundary::reset` (MonoclinicBoundary.cpp:70-98). -/
noncomputable def Mono.reset (b : Mono) : Mono :=
  let c3 := -b.d / b.l 1
  let lengths : Vec := ![b.l 0, b.l 1, b.l 2 / Real.sqrt (1 + c3 * c3)]
  let br : Fin 3 → Vec := fun i => setc (b.bravais i) i (b.l i)
  let re : Fin 3 → Vec := fun i => setc (b.reciprocal i) i (2 * Real.pi / b.l i)
  { b with
    minima := fun _ => 0
    maxima := b.l
    half := fun i => 1 / 2 * b.l i
    inv := fun i => 1 / b.l i
    bravais := Function.update br 1 (setc (br 1) 2 b.d)
    reciprocal := Function.update re 2 (setc (re 2) 1 (-(2 * Real.pi) * b.d / (b.l 1 * b.l 2)))
    volume := b.l 0 * b.l 1 * b.l 2
    e := Real.sqrt (b.l 1 * b.l 1 + b.d * b.d)
    c3 := c3
    lengths := lengths
    minLength := minOf lengths }

/-- `MonoclinicBoundary::setMonoclinic` (MonoclinicBoundary.cpp:50-55). -/
noncomputable def Mono.setMonoclinic (b : Mono) (l : Vec) (d : ℝ) : Mono :=
  Mono.reset { b with l := l, d := d }

/-- `MonoclinicBoundary::setOrthorhombic` (MonoclinicBoundary.cpp:60-65). -/
noncomputable def Mono.setOrthorhombic (b : Mono) (l : Vec) : Mono :=
  Mono.reset { b with l := l, d := 0 }

/-- `shift(Vector& r, IntVector& shift)` (MonoclinicBoundary.h:436-471); the
plain `shift(Vector&)` (402-431) computes the same position. -/
noncomputable def Mono.shiftI (b : Mono) (r : Vec) (s : IVec) : Vec × IVec :=
  let (x, s0) := shift1 (b.minima 0) (b.maxima 0) (b.l 0) (r 0)
  let (y, z, s1) :=
    if r 1 ≥ b.maxima 1 then (r 1 - b.l 1, r 2 - b.d, (1 : ℤ))
    else if r 1 < b.minima 1 then (r 1 + b.l 1, r 2 + b.d, -1)
    else (r 1, r 2, 0)
  let u2 := z + b.c3 * y
  let (z', s2) :=
    if u2 ≥ b.maxima 2 then (z - b.l 2, (1 : ℤ))
    else if u2 < b.minima 2 then (z + b.l 2, -1)
    else (z, 0)
  (![x, y, z'], ![s 0 + s0, s 1 + s1, s 2 + s2])

/-- `shift(Vector& r)` (MonoclinicBoundary.h:402-431). -/
noncomputable def Mono.shift (b : Mono) (r : Vec) : Vec := (b.shiftI r (fun _ => 0)).1

/-- `applyShift(Vector &r, int i, int t)` (MonoclinicBoundary.h:476-490). -/
noncomputable def Mono.applyShift (b : Mono) (r : Vec) (i : Fin 3) (t : ℤ) : Vec :=
  match i with
  | 0 => ![r 0 + t * b.l 0, r 1, r 2]
  | 1 => ![r 0, r 1 + t * b.l 1, r 2 + t * b.d]
  | 2 => ![r 0, r 1, r 2 + t * b.l 2]

/-- Separation and translation computed by the `distanceSq` overloads
(MonoclinicBoundary.h:532-675). -/
noncomputable def Mono.image (b : Mono) (r1 r2 : Vec) : Vec × IVec :=
  let (dx, t0) := image1 (b.half 0) (b.l 0) (r1 0 - r2 0)
  let dy0 := r1 1 - r2 1
  let dz0 := r1 2 - r2 2
  let u2 := dz0 + b.c3 * dy0
  let (dy, dz, t1) :=
    if |dy0| > b.half 1 then
      if dy0 > 0 then (dy0 - b.l 1, dz0 - b.d, (-1 : ℤ)) else (dy0 + b.l 1, dz0 + b.d, 1)
    else (dy0, dz0, 0)
  let (dz', t2) :=
    if |u2| > b.half 2 then
      if u2 > 0 then (dz - b.l 2, (-1 : ℤ)) else (dz + b.l 2, 1)
    else (dz, 0)
  (![dx, dy, dz'], ![t0, t1, t2])

/-- `distanceSq` (MonoclinicBoundary.h:532-675): the overloads agree. -/
noncomputable def Mono.distanceSq (b : Mono) (r1 r2 : Vec) : ℝ :=
  let dr := (b.image r1 r2).1
  dr 0 * dr 0 + dr 1 * dr 1 + dr 2 * dr 2

/-- `transformCartToGen` (MonoclinicBoundary.h:705-712). -/
noncomputable def Mono.toGen (b : Mono) (r : Vec) : Vec :=
  ![r 0 * b.inv 0, r 1 * b.inv 1, (r 2 + b.c3 * r 1) * b.inv 2]

/-- `transformGenToCart` (MonoclinicBoundary.h:717-724). -/
noncomputable def Mono.toCart (b : Mono) (r : Vec) : Vec :=
  ![r 0 * b.l 0, r 1 * b.l 1, r 2 * b.l 2 + r 1 * b.d]

end Verif.Boundary
