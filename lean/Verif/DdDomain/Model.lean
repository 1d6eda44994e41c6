import Verif.Cpp.Trunc
import Verif.Boundary.Model

/-!
# Processor grid

Sources: `src/ddMd/communicate/Domain.h`, `src/ddMd/communicate/Domain.cpp`, and the class
`Util::Grid` (submodule `src/util`, which is not part of the repository; its semantics are
part of the trusted base, see DESIGN.md).
-/

set_option autoImplicit false

namespace Verif.DdDomain

open Verif.Boundary Verif.Cpp

/-- `Util::Grid::rank`: the last coordinate varies fastest. -/
def gridRank (n c : IVec) : ℤ := c 0 * (n 1 * n 2) + c 1 * n 2 + c 2

/-- `Util::Grid::position`. -/
def gridPosition (n : IVec) (k : ℤ) : IVec :=
  let c0 := k.tdiv (n 1 * n 2)
  let k1 := k - c0 * (n 1 * n 2)
  let c1 := k1.tdiv (n 2)
  ![c0, c1, k1 - c1 * n 2]

/-- `Util::Grid::shift`: returns the multiple of the dimension that is subtracted, and the
coordinate in the range of the grid. -/
def gridShift (n x : ℤ) : ℤ × ℤ :=
  let s := if x ≥ 0 then x.tdiv n else -1 + (x + 1).tdiv n
  (s, x - s * n)

/-- The data of a `Domain` (Domain.h:200-230) that initialization sets. -/
structure Domain where
  dims : IVec
  coords : IVec
  shift : Fin 3 → Fin 2 → ℤ
  source : Fin 3 → Fin 2 → ℤ
  dest : Fin 3 → Fin 2 → ℤ

/-- Increment to the source processor (Domain.cpp:158). -/
def incr (j : Fin 2) : ℤ := if j = 0 then 1 else -1

/-- Complementary index `jp` (Domain.cpp:161). -/
def conj (j : Fin 2) : Fin 2 := if j = 0 then 1 else 0

/-- `Domain::initialize` (Domain.cpp:121-185) on the processor with rank `rank` in a
communicator of size `commSize`; `none` if it throws. All directions are periodic
(Domain.cpp:146-148). The loop body sets `dest (i, jp)` in iteration `j`; since `conj` is an
involution, `dest (i, j)` is set in iteration `conj j`. -/
def init (dims : IVec) (commSize rank : ℤ) : Option Domain :=
  if dims 0 ≤ 0 ∨ dims 1 ≤ 0 ∨ dims 2 ≤ 0 then none
  else if dims 0 * dims 1 * dims 2 ≠ commSize then none
  else
    let coords := gridPosition dims rank
    let src := fun (i : Fin 3) (j : Fin 2) => gridShift (dims i) (coords i + incr j)
    let sourceRank := fun i j => gridRank dims (Function.update coords i (src i j).2)
    some { dims := dims, coords := coords
           shift := fun i j => (src i j).1
           source := sourceRank
           dest := fun i j => sourceRank i (conj j) }

/-- `domainBound` (Domain.cpp:190-203). -/
noncomputable def Domain.bound (d : Domain) (i : Fin 3) (j : Fin 2) : ℝ :=
  ((d.coords i : ℝ) + (j.val : ℝ)) * (1 / (d.dims i : ℝ))

/-- `ownerRank` (Domain.cpp:208-229); `none` if it throws. -/
noncomputable def Domain.ownerRank (d : Domain) (x : Vec) : Option ℤ :=
  let r : IVec := fun i => trunc (x i / (1 / (d.dims i : ℝ)))
  if ∀ i, ¬ (r i < 0 ∨ r i ≥ d.dims i) then some (gridRank d.dims r) else none

/-- `isInDomain` (Domain.cpp:234-252). -/
def Domain.isInDomain (d : Domain) (x : Vec) : Prop :=
  ∀ i, ¬ (x i < (d.coords i : ℝ) * (1 / (d.dims i : ℝ))) ∧
       ¬ (x i ≥ ((d.coords i : ℝ) + 1) * (1 / (d.dims i : ℝ)))

end Verif.DdDomain
