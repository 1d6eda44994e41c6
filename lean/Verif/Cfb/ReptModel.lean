/-
Reptation with configurational bias: src/mcMd/mcMoves/linear/CfbReptateMove.cpp (`move`,
`junctionFactor`, and the junctions that `readParameters` finds).

The tail atom of the chosen molecule is removed, and a new head is grown.  During the move the
tail atom stands for the new head; after acceptance all atoms of the molecule are shifted by one
bond.  The functions of CfbLinear are those of `Cfb.Model`.  The autocorrelation of the directions
of accepted moves (`hasAutoCorr_`) is left out.
-/
import Verif.Cfb.Model

set_option autoImplicit false

namespace Verif.Cfb

open Verif.Boundary Verif.McCellList Verif.McMoves
open Verif.Cpp
open Verif.Cpp.Out

/-- The atoms that `addAtom(*molPtr, *tailPtr, *atomPtr, headId, sign, ...)` refers to,
CfbReptateMove.cpp:211 and 217: the new head is the tail atom, its neighbour is the present head,
and the next one is at the address of the neighbour minus `sign` (CfbLinear.cpp:282). -/
def moved (c : Chain) (sign : ℤ) : Chain :=
  { c with atom := fun i => if i = endId c sign then c.atom (endId c (-sign)) else c.atom (i + sign) }

/-- `mask().clear()` and `mask().append(b)` for the mask of atom `a`, CfbReptateMove.cpp:213-216 and
234-238; `bonded` is `maskPolicy_ == MaskBonded`. -/
def retie (w : World) (a b : ℕ) (bonded : Bool) : World :=
  { w with masked := Function.update w.masked a fun x => bonded && decide (x = b) }

/-- `junctions_`, CfbReptateMove.cpp:84-94: bonds between atoms of different types. -/
def junctions (c : Chain) : List ℤ :=
  (ids 0 1 (c.nAtom - 1).toNat).filter fun i => decide (c.atomType i ≠ c.atomType (i + 1))

/-- Index of the atom of junction `j` nearer to the head, CfbReptateMove.cpp:309-315 and 347-353. -/
def headSide (sign j : ℤ) : ℤ := if sign = 1 then j + 1 else j

/-- Index of the other atom of junction `j`: `lTypes_` and `uTypes_` are the types of its atoms. -/
def tailSide (sign j : ℤ) : ℤ := if sign = 1 then j else j + 1

/-- Energy of an atom in `junctionFactor`, CfbReptateMove.cpp:317-326 and 330-338. -/
noncomputable def typeE (w : World) (s : Sys) (a : ℕ) : Out ℝ := do
  let e ← atomPair w s a
  ok (e + w.ext (s.pos a) (s.typ a))

/-- `CfbReptateMove::junctionFactor`, CfbReptateMove.cpp:296-361. -/
noncomputable def junctionFactor (w : World) (c : Chain) (sign : ℤ) (s : Sys) : Out (Sys × ℝ) := do
  let (s1, f) ← loop (fun (st : Sys × ℝ) j => do
    let h := c.atom (headSide sign j)
    let old ← typeE w st.1 h
    let s2 := st.1.setTyp h (c.atomType (tailSide sign j))
    let new ← typeE w s2 h
    ok (s2, st.2 * boltzmann w (new - old))) (junctions c) (s, 1)
  let s3 ← loop (fun (s : Sys) j =>
    ok (s.setTyp (c.atom (headSide sign j)) (c.atomType (headSide sign j)))) (junctions c) s1
  ok (s3, f)

/-- `jFactor`, CfbReptateMove.cpp:219-226. -/
noncomputable def jFactorOf (w : World) (c : Chain) (sign : ℤ) (s : Sys) : Out (Sys × ℝ) :=
  if junctions c ≠ [] then junctionFactor w c sign s else ok (s, 1)

/-- What happens after the decision, CfbReptateMove.cpp:240-288. -/
noncomputable def slide (w : World) (c : Chain) (sign : ℤ) (oldPos : Vec) (s : Sys) :
    Bool → Out (Sys × Bool)
  | true => do
    let tailId := endId c (-sign)
    let tail := c.atom tailId
    let newPos := s.pos tail
    let s1 := s.setPos tail (s.pos (c.atom (tailId + sign)))
    let cl ← ofRes (s1.cells.addAtom w.gen w.cellCap tail (s1.pos tail))
    let s2 ← loop (fun (s : Sys) i =>
      updateCell w (s.setPos (c.atom i) (s.pos (c.atom (i + sign)))) (c.atom i))
      (ids (tailId + sign) sign (c.nAtom - 2).toNat) { s1 with cells := cl }
    let s3 ← updateCell w (s2.setPos (c.atom (endId c sign)) newPos) (c.atom (endId c sign))
    ok (s3.accept, true)
  | false => do
    let tail := c.atom (endId c (-sign))
    let s1 := s.setPos tail oldPos
    let cl ← ofRes (s1.cells.addAtom w.gen w.cellCap tail (s1.pos tail))
    ok ({ s1 with cells := cl }, false)

/-- `CfbReptateMove::move`, CfbReptateMove.cpp:169-291, once the molecule was chosen; `e` is the
deviate that chooses the direction, `us` the directions drawn by `deleteAtom`, `g` the random
numbers of `addAtom` and `v` the deviate of `metropolis`.  The world is returned with its masks. -/
noncomputable def reptate (w : World) (c : Chain) (bonded : Bool) (e : ℝ) (us : List Vec)
    (g : ℝ × List Vec × ℝ) (v : ℝ) (s : Sys) : Out (World × Sys × Bool) := do
  let s0 := s.attempt
  let sign := signOf e
  let headId := endId c sign
  let tailId := endId c (-sign)
  let tail := c.atom tailId
  let oldPos := s0.pos tail
  let oldType := s0.typ tail
  let (s1, rosenR) ← deleteAtom w c (-sign) tailId us s0
  let cl ← ofRes (s1.cells.deleteAtom tail)
  let head := c.atom headId
  let s2 := ({ s1 with cells := cl } : Sys).setTyp tail (s1.typ head)
  let w1 := retie w tail head bonded
  let (s3, rosenF) ← addAtom w1 (moved c sign) sign headId g.1 g.2.1 g.2.2 s2
  let (s4, jFactor) ← jFactorOf w1 c sign s3
  let accept := metropolis (jFactor * rosenF / rosenR) v
  let s5 := s4.setTyp tail oldType
  let w2 := retie w1 tail (c.atom (tailId + sign)) bonded
  let (s6, b) ← slide w2 c sign oldPos s5 accept
  ok (w2, s6, b)

end Verif.Cfb
