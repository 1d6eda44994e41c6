/-
Analyzers that estimate free energies: mcMd/analyzers/mcSystem/McMuExchange.cpp,
mcMd/analyzers/mcSystem/McNVTChemicalPotential.cpp and mcMd/analyzers/perturb/BennettsMethod.cpp.

Simplified: atoms are their index, which is also their place in memory (`Simulation` allocates all
atoms as one array, and the index of an atom is its place, so the difference of two pointers is that
of two indices); the cell list is the list of neighbours that it gives; random numbers are given.
-/
import Mathlib.Analysis.SpecialFunctions.Exp
import Mathlib.Analysis.SpecialFunctions.Log.Basic
import Mathlib.Algebra.BigOperators.Group.Finset.Basic
import Mathlib.Algebra.BigOperators.Group.Finset.Sigma
import Mathlib.Algebra.BigOperators.Ring.Finset
import Mathlib.Algebra.BigOperators.Group.List.Basic
import Mathlib.Tactic.Ring
import Mathlib.Tactic.Linarith
import Mathlib.Tactic.FieldSimp

set_option autoImplicit false

namespace Verif.FreeEnergy

/-! ### McMuExchange -/

/-- What `McMuExchange::sample` reads of the system, McMuExchange.cpp:120-168. -/
structure System where
  /-- `Atom::typeId` -/
  type : ℕ → ℕ
  /-- `Atom::molecule` -/
  mol : ℕ → ℕ
  /-- `Mask::isMasked` of the mask of the first atom -/
  masked : ℕ → ℕ → Prop
  /-- `Boundary::distanceSq` of the positions -/
  rsq : ℕ → ℕ → ℝ
  /-- `CellList::getNeighbors` at the position of the atom -/
  neighbors : ℕ → List ℕ
  /-- `McPairPotential::energy` -/
  energy : ℝ → ℕ → ℕ → ℝ

/-- Parameters, McMuExchange.cpp:55-86: `nAtom_`, `newTypeIds_` and `Species::atomTypeId`. -/
structure Exchange where
  nAtom : ℕ
  new : ℕ → ℕ
  old : ℕ → ℕ

/-- `isAtomFlipped_`, McMuExchange.cpp:76-81. -/
def Exchange.flipped (p : Exchange) (i : ℕ) : Prop := p.new i ≠ p.old i

instance (p : Exchange) (i : ℕ) : Decidable (p.flipped i) := by
  unfold Exchange.flipped; infer_instance

/-- `flipAtomIds_`, McMuExchange.cpp:75-82. -/
def Exchange.flipIds (p : Exchange) : List ℕ := (List.range p.nAtom).filter (fun i => p.flipped i)

open Classical in
/-- Body of the loop over neighbours, McMuExchange.cpp:153-187; `a0` is the first atom of the
molecule. -/
noncomputable def neighborPass (x : System) (p : Exchange) (a0 i1 : ℕ) (dE : ℝ) (a2 : ℕ) : ℝ :=
  let a1 := a0 + i1
  let t1 := x.type a1
  let t1New := p.new i1
  let t2 := x.type a2
  let rsq := x.rsq a1 a2
  if a2 ≠ a1 then
    if ¬ x.masked a1 a2 then
      if x.mol a1 ≠ x.mol a2 then
        dE - x.energy rsq t1 t2 + x.energy rsq t1New t2
      else if a2 > a1 then
        dE - x.energy rsq t1 t2 + x.energy rsq t1New (p.new (a2 - a0))
      else if ¬ p.flipped (a2 - a0) then
        dE - x.energy rsq t1 t2 + x.energy rsq t1New (p.new (a2 - a0))
      else dE
    else dE
  else dE

/-- Energy difference of one molecule, McMuExchange.cpp:137-189. -/
noncomputable def deltaE (x : System) (p : Exchange) (a0 : ℕ) : ℝ :=
  p.flipIds.foldl (fun dE i1 => (x.neighbors (a0 + i1)).foldl (neighborPass x p a0 i1) dE) 0

/-- Values given to the accumulators, one per molecule with the given first atoms,
McMuExchange.cpp:133-194. -/
noncomputable def exchangeSamples (x : System) (p : Exchange) (beta : ℝ) (firsts : List ℕ) : List ℝ :=
  firsts.map (fun a0 => Real.exp (-beta * deltaE x p a0))

/-! ### McNVTChemicalPotential -/

/-- Trial positions (of any kind `P`) of the atoms of one insertion and the choice among them. -/
structure Insertion (P : Type) where
  /-- `trialPos[iTrial]` of an atom -/
  trial : ℕ → ℕ → P
  /-- result of `drawFrom` for an atom -/
  chosen : ℕ → ℕ

/-- Parameters: `nTrial_`, `nAtom` of the species, `beta`; `energy k ps r` is the energy
`atomEnergy` of atom `k` at `r` if the atoms of the molecule placed so far are at `ps`. -/
structure Widom (P : Type) where
  nTrial : ℕ
  nAtom : ℕ
  beta : ℝ
  energy : ℕ → List P → P → ℝ

/-- Boltzmann factor, McNVTChemicalPotential.h:292-293. -/
noncomputable def Widom.boltzmann {P : Type} (s : Widom P) (e : ℝ) : ℝ := Real.exp (-s.beta * e)

/-- Local variables of `sample`, McNVTChemicalPotential.cpp:132-136, and the position of the first
atom of the molecule in memory. -/
structure Local (P : Type) where
  w : ℝ
  rosenbluth : ℝ
  first : P

/-- Positions chosen for the first `k` atoms. -/
def Insertion.chain {P : Type} (t : Insertion P) (k : ℕ) : List P :=
  (List.range k).map (fun i => t.trial i (t.chosen i))

/-- Loop over trial positions of the first atom, McNVTChemicalPotential.cpp:147-167: `w` is
continued, and the energy is that of the atom, whose position is not set. -/
noncomputable def firstLoop {P : Type} (s : Widom P) (l : Local P) : ℝ :=
  (List.range s.nTrial).foldl (fun w _ => w + s.boltzmann (s.energy 0 [] l.first)) l.w

/-- Loops over trial positions of a later atom, McNVTChemicalPotential.cpp:196-227 (second atom),
270-309 (third atom), 463-508 (`addEndAtom`): from zero, and the position of the atom is set. -/
noncomputable def laterLoop {P : Type} (s : Widom P) (t : Insertion P) (k : ℕ) : ℝ :=
  (List.range s.nTrial).foldl
    (fun w j => w + s.boltzmann (s.energy k (t.chain k) (t.trial k j))) 0

/-- Weight of atom `k` of an insertion. -/
noncomputable def stageW {P : Type} (s : Widom P) (l : Local P) (t : Insertion P) (k : ℕ) : ℝ :=
  if k = 0 then firstLoop s l else laterLoop s t k

/-- `rosenbluth` when the position of atom `k` is chosen, McNVTChemicalPotential.cpp:187,250,334,339. -/
noncomputable def rosenAt {P : Type} (s : Widom P) (l : Local P) (t : Insertion P) (k : ℕ) : ℝ :=
  (List.range k).foldl (fun r i => r * stageW s l t i) l.rosenbluth

/-- Array `trialProb` given to `drawFrom` for atom `k`, McNVTChemicalPotential.cpp:169-175,229-235,
310-316 (divided by `rosenbluth`, the product of earlier weights) and 512-518 (in `addEndAtom`,
where `rosenbluth` is the weight of this atom). -/
noncomputable def trialProb {P : Type} (s : Widom P) (l : Local P) (t : Insertion P) (k j : ℕ) : ℝ :=
  (if k = 0 then s.boltzmann (s.energy 0 [] l.first)
    else s.boltzmann (s.energy k (t.chain k) (t.trial k j))) /
  (if k < 3 then rosenAt s l t k else laterLoop s t k)

/-- Body of the main loop, McNVTChemicalPotential.cpp:144-354, for molecules of at least three atoms:
the sample and the local variables afterwards. -/
noncomputable def insertPass {P : Type} (s : Widom P) (l : Local P) (t : Insertion P) :
    ℝ × Local P :=
  let r := rosenAt s l t s.nAtom / (s.nTrial : ℝ) ^ s.nAtom
  (r, ⟨stageW s l t (s.nAtom - 1), r, t.trial 0 (t.chosen 0)⟩)

/-- Main loop: the samples given to `accumulator_`. -/
noncomputable def insertLoop {P : Type} (s : Widom P) : Local P → List (Insertion P) → List ℝ
  | _, [] => []
  | l, t :: ts => (insertPass s l t).1 :: insertLoop s (insertPass s l t).2 ts

/-- `sample`, McNVTChemicalPotential.cpp:132-135,144: `w` is 0 and `rosenbluth` is 1 at the
beginning. -/
noncomputable def widomSamples {P : Type} (s : Widom P) (first : P) (ts : List (Insertion P)) :
    List ℝ := insertLoop s ⟨0, 1, first⟩ ts

end Verif.FreeEnergy
