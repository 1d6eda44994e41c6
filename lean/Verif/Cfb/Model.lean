/-
Configurational bias for the ends of linear chains: src/mcMd/mcMoves/linear/CfbLinear.cpp
(`deleteAtom`, `addAtom`) and CfbLinearEndMove.cpp (`move`).

The system, its pair energies and its cell list are those of `McMoves`; atoms of the chosen
molecule are given by their index in it.  Random numbers are arguments: directions drawn by
`unitVector`, lengths drawn by `randomBondLength`, and uniform deviates.  The energies that the
functions return besides the Rosenbluth factors are not used by the move and are left out.
Divisions by lengths of bonds are those of real numbers (for a bond of length zero the code
computes a NaN, if angles are present).
-/
import Verif.McMoves.Model
import Verif.Boundary.Ortho
import Mathlib.Analysis.SpecialFunctions.Sqrt

set_option autoImplicit false

namespace Verif.Cfb

open Verif.Boundary Verif.McCellList Verif.McMoves
open Verif.Cpp
open Verif.Cpp.Out

/-- A linear molecule and its interactions. -/
structure Chain where
  nAtom : ℤ
  /-- `molecule.atom(i)` -/
  atom : ℤ → ℕ
  /-- `molecule.species().atomTypeId(i)` -/
  atomType : ℤ → ℕ
  /-- `molecule.bond(i).typeId()`; bond `i` joins the atoms `i` and `i + 1` -/
  bondType : ℤ → ℕ
  /-- `molecule.angle(i).typeId()`; angle `i` has the atoms `i`, `i + 1` and `i + 2` -/
  angleType : ℤ → ℕ
  /-- `hasAngles_` -/
  hasAngles : Bool
  /-- `bondPotential().energy(rsq, type)` -/
  bondE : ℝ → ℕ → ℝ
  /-- `anglePotential().energy(cosTheta, type)` -/
  angleE : ℝ → ℕ → ℝ
  /-- the separation returned by `boundary().distanceSq(r1, r2, dr)` -/
  dvec : Vec → Vec → Vec

/-- `shift`, CfbLinear.cpp:128 and 246. -/
def shiftOf (sign : ℤ) : ℤ := if sign = 1 then 1 else 0

/-- Index of the bond of the atom to be removed or added, CfbLinear.cpp:138 and 255. -/
def bondId (sign i : ℤ) : ℤ := i - shiftOf sign

/-- Index used for the angle, CfbLinear.cpp:175 and 287. -/
def angleId (sign i : ℤ) : ℤ := i - 2 * shiftOf sign

/-- `hasAngle`, CfbLinear.cpp:156-165 and 268-277. -/
def hasAngle (c : Chain) (sign i : ℤ) : Bool :=
  c.hasAngles && (if sign = 1 then decide (0 ≤ i - 2 * sign) else decide (i - 2 * sign < c.nAtom))

/-- Unit vector of the next bond, CfbLinear.cpp:167-173 and 279-285 (the address of the
atom is computed from the one of its neighbour in the second case; atoms of a molecule are
contiguous). -/
noncomputable def nextUnit (w : World) (c : Chain) (s : Sys) (sign i : ℤ) : Vec :=
  (Real.sqrt (w.dsq (s.pos (c.atom (i - 2 * sign))) (s.pos (c.atom (i - sign)))))⁻¹ •
    c.dvec (s.pos (c.atom (i - 2 * sign))) (s.pos (c.atom (i - sign)))

/-- Energy of an atom without its bond: CfbLinear.cpp:145-192, 209-229 and 315-337.  The type of
the angle is the type of a bond. -/
noncomputable def trialE (w : World) (c : Chain) (s : Sys) (sign i : ℤ) (u1 : Vec) : Out ℝ := do
  let e ← atomPair w s (c.atom i)
  ok (e + (if hasAngle c sign i then
      c.angleE (dot u1 (nextUnit w c s sign i)) (c.bondType (angleId sign i)) else 0)
    + w.ext (s.pos (c.atom i)) (s.typ (c.atom i)))

/-- `CfbLinear::deleteAtom`, CfbLinear.cpp:121-234: the Rosenbluth factor of an atom and of
`us.length` further positions.  The atom is left at the last of them. -/
noncomputable def deleteAtom (w : World) (c : Chain) (sign i : ℤ) (us : List Vec) (s : Sys) :
    Out (Sys × ℝ) := do
  let a := c.atom i
  let pos1 := s.pos (c.atom (i - sign))
  let r1 := Real.sqrt (w.dsq pos1 (s.pos a))
  let u1 := r1⁻¹ • c.dvec pos1 (s.pos a)
  let e ← trialE w c s sign i u1
  loop (fun (st : Sys × ℝ) u => do
    let s1 := st.1.setPos a (w.shift (pos1 - r1 • u))
    let e ← trialE w c s1 sign i u
    ok (s1, st.2 + boltzmann w e)) us (s, boltzmann w e)

/-- `Random::drawFrom` (util library): the first index whose cumulative probability exceeds a
uniform deviate; an exception if there is none. -/
noncomputable def drawFrom : List ℝ → ℝ → Out ℕ
  | [], _ => Out.throw
  | p :: ps, roll => by
    classical exact if roll < p then ok 0 else (drawFrom ps (roll - p)).bind fun j => ok (j + 1)

/-- The loop over trial positions, CfbLinear.cpp:300-342. -/
noncomputable def trials (w : World) (c : Chain) (sign i : ℤ) (r1 : ℝ) (us : List Vec) (s : Sys) :
    Out (Sys × List (Vec × ℝ)) :=
  loop (fun (st : Sys × List (Vec × ℝ)) u => do
    let x := w.shift (s.pos (c.atom (i - sign)) - r1 • u)
    let s1 := st.1.setPos (c.atom i) x
    let e ← trialE w c s1 sign i u
    ok (s1, st.2 ++ [(x, boltzmann w e)])) us (s, [])

/-- `CfbLinear::addAtom`, CfbLinear.cpp:239-358, with the length `r1` of the bond, the directions
`us` and the deviate `roll`. -/
noncomputable def addAtom (w : World) (c : Chain) (sign i : ℤ) (r1 : ℝ) (us : List Vec) (roll : ℝ)
    (s : Sys) : Out (Sys × ℝ) := do
  require (s.typ (c.atom i) = c.atomType i)
  let (s1, l) ← trials w c sign i r1 us s
  let rosenbluth := (l.map Prod.snd).sum
  let j ← drawFrom (l.map fun x => x.2 / rosenbluth) roll
  match l[j]? with
  | none => ub
  | some x => ok (s1.setPos (c.atom i) x.1, rosenbluth)

/-- Values of `atomId` in a loop that adds `step` to it `n` times. -/
def ids (start step : ℤ) : ℕ → List ℤ
  | 0 => []
  | n + 1 => start :: ids (start + step) step n

/-- The first loop of `move`, CfbLinearEndMove.cpp:133-146. -/
noncomputable def deleteLoop (w : World) (c : Chain) (sign : ℤ) (l : List (ℤ × List Vec)) (s : Sys) :
    Out (Sys × ℝ) :=
  loop (fun (st : Sys × ℝ) x => do
    let (s1, rosenbluth) ← deleteAtom w c sign x.1 x.2 st.1
    let cl ← ofRes (s1.cells.deleteAtom (c.atom x.1))
    ok ({ s1 with cells := cl }, st.2 * rosenbluth)) l (s, 1)

/-- The second loop of `move`, CfbLinearEndMove.cpp:149-165. -/
noncomputable def addLoop (w : World) (c : Chain) (sign : ℤ) (l : List (ℤ × ℝ × List Vec × ℝ))
    (s : Sys) : Out (Sys × ℝ) :=
  loop (fun (st : Sys × ℝ) x => do
    let (s1, rosenbluth) ← addAtom w c sign x.1 x.2.1 x.2.2.1 x.2.2.2 st.1
    let cl ← ofRes (s1.cells.addAtom w.gen w.cellCap (c.atom x.1) (s1.pos (c.atom x.1)))
    ok ({ s1 with cells := cl }, st.2 * rosenbluth)) l (s, 1)

/-- CfbLinearEndMove.cpp:170-187. -/
noncomputable def finish (w : World) (c : Chain) (l : List (ℤ × Vec)) (s : Sys) :
    Bool → Out (Sys × Bool)
  | true => ok (s.accept, true)
  | false => do
    let s1 ← loop (fun (s : Sys) x => updateCell w (s.setPos (c.atom x.1) x.2) (c.atom x.1)) l s
    ok (s1, false)

/-- `sign`, CfbLinearEndMove.cpp:116-124: which end is regrown. -/
noncomputable def signOf (e : ℝ) : ℤ := by classical exact if e > 1 / 2 then 1 else -1

/-- `beginId`, CfbLinearEndMove.cpp:118 and 122. -/
def beginId (c : Chain) (n : ℕ) (sign : ℤ) : ℤ := if sign = 1 then c.nAtom - n else n - 1

/-- `endId`, CfbLinearEndMove.cpp:119 and 123. -/
def endId (c : Chain) (sign : ℤ) : ℤ := if sign = 1 then c.nAtom - 1 else 0

/-- `CfbLinearEndMove::move`, CfbLinearEndMove.cpp:94-188, once the molecule was chosen; `n` is
`nRegrow_`, `e` the deviate that chooses the end, `dels` and `grows` the random numbers of the two
loops and `v` the deviate of `metropolis`. -/
noncomputable def endMove (w : World) (c : Chain) (n : ℕ) (e : ℝ) (dels : List (List Vec))
    (grows : List (ℝ × List Vec × ℝ)) (v : ℝ) (s : Sys) : Out (Sys × Bool) := do
  let s0 := s.attempt
  check ((n : ℤ) < c.nAtom)
  let sign := signOf e
  let grown := ids (beginId c n sign) sign n
  let old := grown.map fun i => s0.pos (c.atom i)
  let (s1, rosenR) ← deleteLoop w c sign ((ids (endId c sign) (-sign) n).zip dels) s0
  let (s2, rosenF) ← addLoop w c sign (grown.zip grows) s1
  finish w c (grown.zip old) s2 (metropolis (rosenF / rosenR) v)

end Verif.Cfb
