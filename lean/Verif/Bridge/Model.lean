/-
Regrowth of interior segments by configurational bias: `CfbRebridgeBase`, `CfbRebridgeMove`,
`CfbRingRebridgeMove` of mcMd/mcMoves.

Simplified: positions are elements of any type; the energy of an atom in its surroundings, the energies
of bonds, and the orientation bias with its normalization are functions of the positions.  Positions of
atoms are listed in the order of growth.  The choice of the molecule and the cell list are left out
(the cell list is in C04, C39).
-/
import Verif.Cpp.Outcome
import Mathlib.Analysis.SpecialFunctions.Exp

set_option autoImplicit false

namespace Verif.Bridge

open Verif.Cpp
open Verif.Cpp.Out

/-! ### Indices -/

/-- Segment: direction of growth, first and last atom. -/
structure Segment where
  sign : ℤ
  beginId : ℤ
  endId : ℤ

/-- Choice of the segment of `n` atoms in a linear chain, CfbRebridgeMove.cpp:125-144; `k` is the draw of
`uniformInt(1, length - n)`, `up` the result of the other draw. -/
def chooseLinear (length n k : ℤ) (up : Bool) : Out Segment := do
  check (¬ n > length - 2)
  ok (if up then ⟨1, k, k + (n - 1)⟩ else ⟨-1, k + (n - 1), k⟩)

/-- Index of the bond of which `bonds[i]` is the type, CfbRebridgeMove.cpp:153-160. -/
def bondLinear (g : Segment) (i : ℤ) : ℤ := if g.sign = 1 then g.endId - i else g.endId - 1 + i

/-- `CfbRingRebridgeMove::modId`, CfbRingRebridgeMove.h:121-126. -/
def modId (id n : ℤ) : ℤ :=
  let id := if id ≥ n then id.tmod n else id
  if id < 0 then n - (-id).tmod n else id

/-- Choice of the segment in a ring, CfbRingRebridgeMove.cpp:130-156, with `k` the draw of
`uniformInt(0, nAtom)`. -/
def chooseRing (nAtom n k : ℤ) (up : Bool) : Out Segment := do
  check (¬ n > nAtom - 2)
  ok (if up then ⟨1, k, (k + (n - 1)).tmod nAtom⟩ else ⟨-1, (k + (n - 1)).tmod nAtom, k⟩)

/-- The value of `iBond` in iteration `i`, CfbRingRebridgeMove.cpp:146-152 and 158-165. -/
def bondRing (nAtom : ℤ) (g : Segment) : ℕ → ℤ
  | 0 =>
    if g.sign = 1 then g.endId
    else if g.endId - 1 < 0 then g.endId - 1 + nAtom else g.endId - 1
  | i + 1 =>
    let b := bondRing nAtom g i
    if g.sign = 1 then (if b - 1 < 0 then b - 1 + nAtom else b - 1)
    else (if b + 1 ≥ nAtom then b + 1 - nAtom else b + 1)

/-- `oldPos_[i]`, CfbRebridgeMove.cpp:146-151, with indices in a linear chain (for a ring they are
remainders, CfbRingRebridgeMove.cpp:168-173). -/
def store {P : Type} (id : ℤ → ℤ) (g : Segment) (pos : ℤ → P) (i : ℕ) : P := pos (id (g.beginId + i * g.sign))

/-- Restoring positions after rejection, CfbRebridgeMove.cpp:184-193, CfbRingRebridgeMove.cpp:195-204. -/
def restore {P : Type} (id : ℤ → ℤ) (g : Segment) (n : ℕ) (old : ℕ → P) (pos : ℤ → P) : ℤ → P :=
  (List.range n).foldl (fun p (i : ℕ) => Function.update p (id (g.beginId + i * g.sign)) (old i)) pos

/-! ### Angles -/

/-- `pvtPtr2`, CfbEndBase.cpp:86-97: the third atom of the angle of `a` with `p` at its centre, in a
linear chain whose species has angles or not; null if there is none. -/
def third (length : ℤ) (hasAngles : Bool) (a p : ℤ) : Option ℤ :=
  if hasAngles ∧ 1 ≤ p ∧ p ≤ length - 2 then some (2 * p - a) else none

/-- `deleteEndAtom` in a system with an angle potential reads `pvtPtr2->position()`,
CfbEndBase.cpp:100-101. -/
def endAngle (length : ℤ) (hasAngles : Bool) (a p : ℤ) : Out Unit :=
  match third length hasAngles a p with
  | none => ub
  | some _ => ok ()

/-- The second step of `deleteSequence`, CfbRebridgeBase.cpp:408-422: atoms of the segment but the last,
each with its predecessor. -/
def deleteAngles (length : ℤ) (hasAngles : Bool) (g : Segment) (n : ℕ) : Out Unit :=
  loop (fun _ (i : ℕ) =>
    endAngle length hasAngles (g.endId - (i + 1) * g.sign) (g.endId - (i + 2) * g.sign))
    (List.range (n - 1)) ()

/-! ### Table of orientation biases -/

/-- `MaxBin_`, CfbRebridgeBase.h:118. -/
def maxBin : ℤ := 102

/-- `l20Table`, CfbRebridgeBase.cpp:104-129, between `lmin` and `lmax`. -/
noncomputable def l20Table (lmin lmax : ℝ) (i : ℤ) : ℝ :=
  if i ≤ 0 then lmin
  else if i ≥ maxBin - 1 then lmax
  else lmin - (lmax - lmin) / (maxBin - 2) / 2 + i * ((lmax - lmin) / (maxBin - 2))

/-- The index that `getAngKappaNorm` uses, CfbRebridgeBase.h:167-185. -/
noncomputable def binOf (lmin lmax l : ℝ) : ℤ :=
  open Classical in
  if l ≤ l20Table lmin lmax 0 then 0
  else if l ≥ l20Table lmin lmax (maxBin - 1) then maxBin - 1
  else ⌊(l - l20Table lmin lmax 0) / (l20Table lmin lmax 2 - l20Table lmin lmax 1)⌋ + 1

/-! ### Rosenbluth factors -/

/-- What the moves use of the system.  The positions of atoms grown before are the list in the first
argument, latest first; an empty list stands for the fixed atom before the segment. -/
structure World (P : Type) where
  beta : ℝ
  /-- pair, angle and external energy of the next atom, without its bonds -/
  energy : List P → P → ℝ
  /-- energy of the bond with the atom before -/
  prevBond : List P → P → ℝ
  /-- energy of the bond of the last atom with the fixed atom after the segment -/
  nextBond : P → ℝ
  /-- `bias` of `orientationBias` -/
  bias : List P → P → ℝ
  /-- `normConst` of `getAngKappaNorm` -/
  norm : List P → ℝ

variable {P : Type}

/-- `boltzmann` of `SystemMove`. -/
noncomputable def World.boltz (w : World P) (e : ℝ) : ℝ := Real.exp (-w.beta * e)

/-- `deleteEndAtom`, CfbEndBase.cpp:62-186: Rosenbluth factor of an atom at `x` and of trial positions. -/
noncomputable def World.deleteEnd (w : World P) (before : List P) (x : P) (trials : List P) : ℝ :=
  trials.foldl (fun r t => r + w.boltz (w.energy before t)) (w.boltz (w.energy before x))

/-- `deleteMiddleAtom`, CfbRebridgeBase.cpp:151-262. -/
noncomputable def World.deleteMiddle (w : World P) (before : List P) (x : P) (trials : List P) : ℝ :=
  w.norm before / w.bias before x *
    trials.foldl (fun r t => r + w.boltz (w.energy before t + w.nextBond t))
      (w.boltz (w.energy before x + w.nextBond x))

/-- `wExt` of `addEndAtom`, CfbEndBase.cpp:214-265: the sum over all trial positions. -/
noncomputable def World.sumEnd (w : World P) (before : List P) (trials : List P) : ℝ :=
  trials.foldl (fun r t => r + w.boltz (w.energy before t)) 0

/-- `wExt` of `addMiddleAtom`, CfbRebridgeBase.cpp:302-352. -/
noncomputable def World.sumMiddle (w : World P) (before : List P) (trials : List P) : ℝ :=
  trials.foldl (fun r t => r + w.boltz (w.energy before t + w.nextBond t)) 0

/-- `addEndAtom`: Rosenbluth factor, and probability of choosing the position `x`. -/
noncomputable def World.addEnd (w : World P) (before : List P) (x : P) (trials : List P) : ℝ × ℝ :=
  (w.sumEnd before trials, w.boltz (w.energy before x) / w.sumEnd before trials)

/-- `addMiddleAtom`, CfbRebridgeBase.cpp:342-373. -/
noncomputable def World.addMiddle (w : World P) (before : List P) (x : P) (trials : List P) : ℝ × ℝ :=
  (w.sumMiddle before trials * w.norm before / w.bias before x,
    w.boltz (w.energy before x + w.nextBond x) / w.sumMiddle before trials)

/-- `deleteSequence`, CfbRebridgeBase.cpp:379-424: the last atom (head of the list) by
`deleteMiddleAtom`, then the others by `deleteEndAtom`, from the last to the first. -/
noncomputable def World.deleteSequence (w : World P) : List (P × List P) → ℝ
  | [] => 1
  | (x, ts) :: rest =>
    let before := rest.map Prod.fst
    let rec ends : List (P × List P) → ℝ → ℝ
      | [], r => r
      | (x, ts) :: rest, r => ends rest (r * w.deleteEnd (rest.map Prod.fst) x ts)
    ends rest (1 * w.deleteMiddle before x ts)

/-- First step of `addSequence`, CfbRebridgeBase.cpp:445-462: atoms but the last in the order of growth,
after those in `before`.  Each has its position and the other trial positions; the position stands among
the trials at the place `k`. Returns the Rosenbluth factor and the probability of the choices. -/
noncomputable def World.addEnds (w : World P) :
    List P → List (P × List P × ℕ) → ℝ × ℝ → (ℝ × ℝ) × List P
  | before, [], r => (r, before)
  | before, (x, ts, k) :: rest, r =>
    let a := w.addEnd before x (ts.insertIdx k x)
    w.addEnds (x :: before) rest (r.1 * a.1, r.2 * a.2)

/-- `addSequence`, CfbRebridgeBase.cpp:429-479. -/
noncomputable def World.addSequence (w : World P) (ends : List (P × List P × ℕ))
    (last : P × List P × ℕ) : ℝ × ℝ :=
  let (r, before) := w.addEnds [] ends (1, 1)
  let a := w.addMiddle before last.1 (last.2.1.insertIdx last.2.2 last.1)
  (r.1 * a.1, r.2 * a.2)

/-- Probability of acceptance of `metropolis(rosen_f/rosen_r)`, CfbRebridgeMove.cpp:174. -/
noncomputable def accept (rosenF rosenR : ℝ) : ℝ := min 1 (rosenF / rosenR)

end Verif.Bridge
