/-
Exchange of the ends of two chains with regrowth of the bridges: `CfbDoubleRebridgeMove` of
mcMd/mcMoves/linear.

Simplified: positions are elements of any type, with a squared distance; an atom is given by its molecule
and its index.  The cell list is left out.  Growing and deleting segments is that of `Bridge`.
-/
import Verif.Bridge.Model

set_option autoImplicit false

namespace Verif.Double

open Verif.Cpp
open Verif.Cpp.Out

/-- Positions: molecule, index of the atom. -/
abbrev Pos (P : Type) := ℕ → ℤ → P

/-- Parameters: number of molecules and atoms of each, `nRegrow_`, square of `bridgeLength_`. -/
structure Pars (P : Type) where
  nMol : ℕ
  nAtom : ℕ
  nRegrow : ℕ
  bridgeSq : ℝ
  distSq : P → P → ℝ

variable {P : Type}

/-- `beginId` of `forwardScan`, CfbDoubleRebridgeMove.cpp:343, `headId` of `reverseScan`, :458. -/
def Pars.head (p : Pars P) (sign : ℤ) : ℤ := if sign = -1 then p.nAtom - 1 else 0

/-- `signRegrow`, CfbDoubleRebridgeMove.cpp:346 and 434. -/
def Pars.reach (p : Pars P) (sign : ℤ) : ℤ := sign * (p.nRegrow + 1)

/-- The two tests of distances, CfbDoubleRebridgeMove.cpp:362-374, 441-449, 477-487. -/
def Pars.close (p : Pars P) (sign : ℤ) (x : Pos P) (i j : ℕ) (a : ℤ) : Prop :=
  p.distSq (x i a) (x j (a + p.reach sign)) < p.bridgeSq
    ∧ p.distSq (x i (a + p.reach sign)) (x j a) < p.bridgeSq

/-- Number of iterations of the inner loop, `nAtom - 1 - nRegrow_`. -/
def Pars.places (p : Pars P) : ℕ := p.nAtom - 1 - p.nRegrow

/-- `maxPair`, CfbDoubleRebridgeMove.cpp:338. -/
def Pars.maxPair (p : Pars P) : ℕ := (p.nMol - 1) * p.places

/-- The loops of `forwardScan`, CfbDoubleRebridgeMove.cpp:354-386: candidates in `molBuf` and `atomBuf`;
writing past their ends is undefined behaviour. -/
noncomputable def Pars.scan (p : Pars P) (sign : ℤ) (x : Pos P) (i : ℕ) : Out (List (ℕ × ℤ)) :=
  open Classical in
  loop (fun l j =>
    if j ≠ i then
      loop (fun l (k : ℕ) =>
        if p.close sign x i j (p.head sign + k * sign) then do
          require (l.length < p.maxPair)
          ok (l ++ [(j, p.head sign + k * sign)])
        else ok l) (List.range p.places) l
    else ok l) (List.range p.nMol) []

/-- Result of `forwardScan`: second molecule, first atom to be regrown, probability. -/
structure Found where
  jMol : ℕ
  beginId : ℤ
  prob : ℝ

/-- `forwardScan`, CfbDoubleRebridgeMove.cpp:311-407, once the molecule `i` was drawn; `choice` is the draw
of `uniformInt(0, nPairs)`. -/
noncomputable def Pars.forwardScan (p : Pars P) (sign : ℤ) (x : Pos P) (i choice : ℕ) :
    Out (Option Found) := do
  check (¬ (p.nRegrow : ℤ) > p.nAtom - 2)
  let l ← p.scan sign x i
  if l.length > 0 then
    match l[choice]? with
    | none => ub
    | some c => ok (some ⟨c.1, c.2 + sign, 1 / l.length⟩)
  else ok none

/-- The count of `reverseScan`, CfbDoubleRebridgeMove.cpp:464-498. -/
noncomputable def Pars.recount (p : Pars P) (sign : ℤ) (x : Pos P) (i : ℕ) : ℕ :=
  open Classical in
  (List.range p.nMol).foldl (fun n j =>
    if j ≠ i then
      (List.range p.places).foldl (fun n (k : ℕ) =>
        if p.close sign x i j (p.head sign + k * sign) then n + 1 else n) n
    else n) 0

/-- `reverseScan`, CfbDoubleRebridgeMove.cpp:417-503: `none` if it returns false. -/
noncomputable def Pars.reverseScan (p : Pars P) (sign : ℤ) (x : Pos P) (i j : ℕ) (beginId : ℤ) : Option ℝ :=
  open Classical in
  if p.close sign x i j beginId then some (1 / p.recount sign x i) else none

/-- `nEnd`, CfbDoubleRebridgeMove.cpp:188-191. -/
def Pars.nEnd (p : Pars P) (sign beginId : ℤ) : ℤ :=
  if sign = 1 then p.nAtom - beginId - p.nRegrow else beginId + 1 - p.nRegrow

/-- Assignment to the position of an atom. -/
def put (x : Pos P) (m : ℕ) (a : ℤ) (r : P) : Pos P := fun m' a' => if m' = m ∧ a' = a then r else x m' a'

/-- The loops that exchange the ends, CfbDoubleRebridgeMove.cpp:193-210 and 262-279. -/
def Pars.swapEnds (p : Pars P) (sign : ℤ) (i j : ℕ) (beginId : ℤ) (x : Pos P) : Pos P :=
  (List.range (p.nEnd sign beginId).toNat).foldl (fun x (k : ℕ) =>
    let a := beginId + p.nRegrow * sign + k * sign
    let r := x i a
    put (put x i a (x j a)) j a r) x

/-- Restoring the positions of the two segments, CfbDoubleRebridgeMove.cpp:243-259, from the positions
`x0` stored before (lines 150-160). -/
def Pars.restoreSegments (p : Pars P) (sign : ℤ) (i j : ℕ) (beginId : ℤ) (x0 x : Pos P) : Pos P :=
  (List.range p.nRegrow).foldl (fun x (k : ℕ) =>
    let a := beginId + k * sign
    put (put x i a (x0 i a)) j a (x0 j a)) x

/-- Index of the bond of which `bonds[k]` is the type, CfbDoubleRebridgeMove.cpp:165-171. -/
def Pars.bondId (p : Pars P) (sign beginId : ℤ) (k : ℤ) : ℤ :=
  if sign = 1 then beginId - 1 + p.nRegrow - k else beginId - p.nRegrow + k

/-- Probability of acceptance, CfbDoubleRebridgeMove.cpp:226-233; the last argument is the result of
`reverseScan`. -/
noncomputable def accept (rosenF rosenR po2n : ℝ) : Option ℝ → ℝ
  | none => 0
  | some pn2o => min 1 (rosenF * pn2o / rosenR / po2n)

end Verif.Double
