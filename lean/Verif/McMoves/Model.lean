/-
Monte Carlo moves: src/mcMd/mcMoves/common/{AtomDisplaceMove,RigidDisplaceMove}.cpp,
linear/EndSwapMove.cpp, semigrand/HomopolymerSemiGrandMove.cpp, SystemMove.h,
McMove.h; the energies they use: McPairPotentialImpl.h (`atomEnergy`,
`moleculeEnergy`), McSystem::atomPotentialEnergy; and SpeciesMutator.

Atoms and molecules are given by indices; the cell list is that of `McCellList`.
All random numbers are arguments.  Bonds, angles, dihedrals and links enter as
`Term`s, i.e. energies of a few atoms.  `double` is `ℝ`.
-/
import Verif.McCellList.Model
import Verif.Cpp.Outcome
import Mathlib.Analysis.SpecialFunctions.Exp

set_option autoImplicit false

namespace Verif.McMoves

open Verif.Boundary Verif.McCellList Verif.McCell
open Verif.Cpp
open Verif.Cpp.Out

/-- An interaction of a few atoms (bond, angle, dihedral or link), evaluated from
positions. -/
structure Term where
  atoms : List ℕ
  energy : (ℕ → Vec) → ℝ

/-- What does not change during a move: molecules, interactions, boundary. -/
structure World where
  /-- atoms of the system -/
  atoms : Finset ℕ
  molAtoms : ℕ → List ℕ
  molOf : ℕ → ℕ
  /-- `a.mask().isMasked(b)` -/
  masked : ℕ → ℕ → Bool
  /-- `interaction().energy(rsq, typeId, typeId)` -/
  pair : ℝ → ℕ → ℕ → ℝ
  /-- bonds, angles and dihedrals -/
  bonded : List Term
  links : List Term
  /-- `externalPotential().atomEnergy`, zero without external potential -/
  ext : Vec → ℕ → ℝ
  /-- energy of the tether of an atom, zero if it has none -/
  tether : ℕ → Vec → ℝ
  beta : ℝ
  gen : Vec → Vec
  shift : Vec → Vec
  dsq : Vec → Vec → ℝ
  /-- capacity of a cell -/
  cellCap : ℕ
  /-- `HomopolymerSG::typeIds_` -/
  stateType : Fin 2 → ℕ
  /-- `stateWeights_` -/
  weight : Fin 2 → ℝ

/-- What moves change.  `state` is `moleculeStateIds_`, `none` is
`NullStateId`. -/
structure Sys where
  pos : ℕ → Vec
  typ : ℕ → ℕ
  cells : CL
  nAttempt : ℕ
  nAccept : ℕ
  state : ℕ → Option (Fin 2)
  occ : Fin 2 → ℤ

abbrev Sys.setPos (s : Sys) (a : ℕ) (r : Vec) : Sys :=
  { s with pos := Function.update s.pos a r }

abbrev Sys.setTyp (s : Sys) (a t : ℕ) : Sys := { s with typ := Function.update s.typ a t }

/-- `incrementNAttempt`, McMove.h:196-197. -/
abbrev Sys.attempt (s : Sys) : Sys := { s with nAttempt := s.nAttempt + 1 }

/-- `incrementNAccept`, McMove.h:202-203. -/
abbrev Sys.accept (s : Sys) : Sys := { s with nAccept := s.nAccept + 1 }

/-- `cellList_.getNeighbors(position, neighbors_)`. -/
noncomputable def near (w : World) (s : Sys) (r : Vec) : Out (List ℕ) :=
  match s.cells.getNeighbors w.gen r with
  | none => ub
  | some l => ok l

/-- `interaction().energy(boundary().distanceSq(…), …)` for two atoms. -/
def pairOne (w : World) (s : Sys) (a b : ℕ) : ℝ :=
  w.pair (w.dsq (s.pos a) (s.pos b)) (s.typ a) (s.typ b)

/-- Contribution of a neighbour to `atomEnergy`, McPairPotentialImpl.h:306-320. -/
noncomputable def atomPairOne (w : World) (s : Sys) (a b : ℕ) : ℝ :=
  if b ≠ a ∧ w.masked a b = false then pairOne w s a b else 0

/-- `McPairPotentialImpl::atomEnergy`, McPairPotentialImpl.h:290-323. -/
noncomputable def atomPair (w : World) (s : Sys) (a : ℕ) : Out ℝ := do
  let l ← near w s (s.pos a)
  ok ((l.map (atomPairOne w s a)).sum)

/-- Contribution of a neighbour to `moleculeEnergy`,
McPairPotentialImpl.h:347-366. -/
noncomputable def molPairOne (w : World) (s : Sys) (a b : ℕ) : ℝ :=
  if b ≠ a ∧ w.masked a b = false ∧ (w.molOf a ≠ w.molOf b ∨ a < b) then pairOne w s a b else 0

/-- `McPairPotentialImpl::moleculeEnergy`, McPairPotentialImpl.h:325-370. -/
noncomputable def molPair (w : World) (s : Sys) (m : ℕ) : Out ℝ :=
  loop (fun e a => do
    let l ← near w s (s.pos a)
    ok (e + (l.map (molPairOne w s a)).sum)) (w.molAtoms m) 0

/-- Sum of the terms that contain an atom: `atomEnergy` of bond, angle, dihedral
and link potentials, BondPotentialImpl.h:300-319 and the like. -/
noncomputable def atomTerms (l : List Term) (s : Sys) (a : ℕ) : ℝ :=
  (l.map fun t => if a ∈ t.atoms then t.energy s.pos else 0).sum

/-- `McSystem::atomPotentialEnergy`, McSystem.cpp:458-497. -/
noncomputable def atomEnergy (w : World) (s : Sys) (a : ℕ) : Out ℝ := do
  let e ← atomPair w s a
  ok (e + atomTerms w.bonded s a + w.ext (s.pos a) (s.typ a) + atomTerms w.links s a
    + w.tether a (s.pos a))

/-- `SystemMove::boltzmann`, SystemMove.h:97-98. -/
noncomputable def boltzmann (w : World) (e : ℝ) : ℝ := Real.exp (-w.beta * e)

/-- `Random::metropolis` (util library): `v` is a uniform deviate in [0,1). -/
noncomputable def metropolis (ratio v : ℝ) : Bool := by
  classical exact decide (ratio > 1 ∨ v < ratio)

/-- Outcomes of the cell list. -/
def ofRes : Res CL → Out CL
  | .ok c => ok c
  | .throw => Out.throw
  | .ub => ub

/-- `pairPotential().updateAtomCell(atom)`. -/
noncomputable def updateCell (w : World) (s : Sys) (a : ℕ) : Out Sys := do
  let c ← ofRes (s.cells.updateAtomCell w.gen w.cellCap a (s.pos a))
  ok { s with cells := c }

/-! ### Displacement of one atom -/

/-- AtomDisplaceMove.cpp:92-102. -/
noncomputable def finishAtom (w : World) (a : ℕ) (old : Vec) (s : Sys) :
    Bool → Out (Sys × Bool)
  | true => do
    let s1 ← updateCell w s a
    ok (s1.accept, true)
  | false => ok (s.setPos a old, false)

/-- `AtomDisplaceMove::move`, AtomDisplaceMove.cpp:62-105, once the atom `a` was
chosen; `u` are the three random displacements. -/
noncomputable def atomDisplace (w : World) (a : ℕ) (u : Vec) (v : ℝ) (s : Sys) :
    Out (Sys × Bool) := do
  let s1 := s.attempt
  let old := s1.pos a
  let eOld ← atomEnergy w s1 a
  let s2 := s1.setPos a (w.shift (s1.pos a + u))
  let eNew ← atomEnergy w s2 a
  finishAtom w a old s2 (metropolis (boltzmann w (eNew - eOld)) v)

/-! ### Rigid displacement of a molecule -/

/-- Energy of one atom in `RigidDisplaceMove::move`. -/
noncomputable def rigidAtom (w : World) (s : Sys) (a : ℕ) : Out ℝ := do
  let e ← atomPair w s a
  ok (e + w.ext (s.pos a) (s.typ a) + w.tether a (s.pos a))

/-- Old energy, RigidDisplaceMove.cpp:88-103. -/
noncomputable def rigidOld (w : World) (l : List ℕ) (s : Sys) : Out ℝ :=
  loop (fun e a => do
    let x ← rigidAtom w s a
    ok (e + x)) l 0

/-- Displacement and new energy, RigidDisplaceMove.cpp:111-128: the energy of an
atom is computed before the atoms that follow it have been moved. -/
noncomputable def rigidNew (w : World) (l : List ℕ) (dr : Vec) (s : Sys) : Out (Sys × ℝ) :=
  loop (fun (st : Sys × ℝ) a => do
    let s1 := st.1.setPos a (w.shift (st.1.pos a + dr))
    let x ← rigidAtom w s1 a
    ok (s1, st.2 + x)) l (s, 0)

/-- Restoring positions, RigidDisplaceMove.cpp:148-151. -/
def restore (l : List ℕ) (old : ℕ → Vec) (s : Sys) : Sys :=
  l.foldl (fun s a => s.setPos a (old a)) s

/-- RigidDisplaceMove.cpp:133-153. -/
noncomputable def finishRigid (w : World) (l : List ℕ) (old : ℕ → Vec) (s : Sys) :
    Bool → Out (Sys × Bool)
  | true => do
    let s1 ← loop (updateCell w) l s
    ok (s1.accept, true)
  | false => ok (restore l old s, false)

/-- `RigidDisplaceMove::move`, RigidDisplaceMove.cpp:71-155, for the molecule
`m`. -/
noncomputable def rigidDisplace (w : World) (m : ℕ) (dr : Vec) (v : ℝ) (s : Sys) :
    Out (Sys × Bool) := do
  let s1 := s.attempt
  let eOld ← rigidOld w (w.molAtoms m) s1
  let (s2, eNew) ← rigidNew w (w.molAtoms m) dr s1
  finishRigid w (w.molAtoms m) s1.pos s2 (metropolis (boltzmann w (eNew - eOld)) v)

/-! ### Swap of the ends of a linear chain -/

/-- `moleculeEnergy` and external energy of the molecule,
EndSwapMove.cpp:128-139 and 148-159 (the types are set once more in the second
loop, to the same values). -/
noncomputable def molEnergy (w : World) (s : Sys) (m : ℕ) : Out ℝ := do
  let e ← molPair w s m
  ok (e + ((w.molAtoms m).map fun a => w.ext (s.pos a) (s.typ a)).sum)

/-- Reversal of types, EndSwapMove.cpp:142-145, with the assertion. -/
def reverseTypes (l seq : List ℕ) (s : Sys) : Out Sys :=
  loop (fun (s : Sys) (x : ℕ × ℕ × ℕ) => do
    require (s.typ x.1 = x.2.1)
    ok (s.setTyp x.1 x.2.2)) (l.zip (seq.zip seq.reverse)) s

/-- Restoring types, EndSwapMove.cpp:163-165. -/
def restoreTypes (l seq : List ℕ) (s : Sys) : Sys :=
  (l.zip seq).foldl (fun s x => s.setTyp x.1 x.2) s

/-- Reversal of positions, EndSwapMove.cpp:172-184. -/
noncomputable def reversePositions (w : World) (l : List ℕ) (s : Sys) : Out Sys :=
  loop (fun (s : Sys) (x : ℕ × Vec) => updateCell w (s.setPos x.1 x.2) x.1)
    (l.zip (l.map s.pos).reverse) s

/-- EndSwapMove.cpp:170-189. -/
noncomputable def finishSwap (w : World) (l : List ℕ) (s : Sys) : Bool → Out (Sys × Bool)
  | true => do
    let s1 ← reversePositions w l s
    ok (s1.accept, true)
  | false => ok (s, false)

/-- `EndSwapMove::move`, EndSwapMove.cpp:113-192, for the molecule `m` of a
species with the sequence `seq` of atom types. -/
noncomputable def endSwap (w : World) (m : ℕ) (seq : List ℕ) (v : ℝ) (s : Sys) :
    Out (Sys × Bool) := do
  let s1 := s.attempt
  let eOld ← molEnergy w s1 m
  let s2 ← reverseTypes (w.molAtoms m) seq s1
  let eNew ← molEnergy w s2 m
  let s3 := restoreTypes (w.molAtoms m) seq s2
  finishSwap w (w.molAtoms m) s3 (metropolis (boltzmann w (eNew - eOld)) v)

/-! ### Semigrand move -/

/-- Occupancies after `setMoleculeStateId`, SpeciesMutator.cpp:57-69. -/
def newOcc (occ : Fin 2 → ℤ) (old : Option (Fin 2)) (new : Fin 2) : Fin 2 → ℤ :=
  let o := match old with
    | none => occ
    | some c => Function.update occ c (occ c - 1)
  Function.update o new (o new + 1)

/-- `HomopolymerSG::setMoleculeState`, HomopolymerSG.cpp:181-188. -/
def setState (w : World) (m : ℕ) (c : Fin 2) (s : Sys) : Sys :=
  let s1 := (w.molAtoms m).foldl (fun s a => s.setTyp a (w.stateType c)) s
  { s1 with state := Function.update s1.state m (some c), occ := newOcc s1.occ (s1.state m) c }

/-- `stateWeight(stateId)`; the index of the null state is out of bounds. -/
def weightOf (w : World) : Option (Fin 2) → Out (ℝ × Fin 2)
  | none => ub
  | some c => ok (w.weight c, c)

/-- HomopolymerSemiGrandMove.cpp:82-83. -/
def toggle (c : Option (Fin 2)) : Fin 2 := if c = some 0 then 1 else 0

/-- HomopolymerSemiGrandMove.cpp:104-115. -/
def finishSemiGrand (w : World) (m : ℕ) (c : Fin 2) (s : Sys) : Bool → Sys × Bool
  | true => (s.accept, true)
  | false => (setState w m c s, false)

/-- `HomopolymerSemiGrandMove::move`, HomopolymerSemiGrandMove.cpp:71-118, for the
molecule `m`. -/
noncomputable def semiGrand (w : World) (m : ℕ) (v : ℝ) (s : Sys) : Out (Sys × Bool) := do
  let s1 := s.attempt
  let eOld ← molPair w s1 m
  let old := s1.state m
  let new := toggle old
  let s2 := setState w m new s1
  let eNew ← molPair w s2 m
  let (oldWeight, c) ← weightOf w old
  let ratio := boltzmann w (eNew - eOld) * w.weight new / oldWeight
  ok (finishSemiGrand w m c s2 (metropolis ratio v))

end Verif.McMoves
