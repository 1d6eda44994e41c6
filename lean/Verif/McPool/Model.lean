/-
Reservoirs of unused molecules and sets of the molecules of a system in mcMd:
`Simulation::getMolecule`, `returnMolecule` (src/mcMd/simulation/Simulation.cpp:901-927)
and `System::addMolecule`, `removeMolecule`, `removeAllMolecules`
(src/mcMd/simulation/System.cpp:1093-1184).

A molecule is given by the index `k` of its species and its index `i` within
the species.  `ArrayStack` and `ArraySet` belong to the util library, which is
not part of the repository; the definitions below state how they behave.
Simplifications: notification of observers and activation of the atoms of a new
molecule (see `McMem`) are omitted.
-/
import Verif.Cpp.Outcome
import Mathlib.Logic.Function.Basic
import Mathlib.Data.Finset.Card
import Mathlib.Data.List.Nodup

set_option autoImplicit false

namespace Verif.McPool

open Verif.Cpp
open Verif.Cpp.Out

/-- `Util::ArraySet`: pointers to some elements of an array, and for each
element of the array its position in the list of pointers. -/
structure ASet where
  elems : List ℕ
  tags : ℕ → Option ℕ

/-- `ArraySet::allocate`. -/
def ASet.empty : ASet := ⟨[], fun _ => none⟩

/-- `ArraySet::append`. -/
def ASet.append (cap : ℕ) (s : ASet) (i : ℕ) : Out ASet := do
  require (i < cap)
  check (s.tags i = none)
  require (s.elems.length < cap)
  ok ⟨s.elems ++ [i], Function.update s.tags i (some s.elems.length)⟩

/-- Removal of the element at position `t`: the last element takes its place. -/
def ASet.removeAt (s : ASet) (i t : ℕ) : ASet :=
  let n := s.elems.length - 1
  let last := s.elems.getD n 0
  if t ≠ n then
    ⟨(s.elems.set t last).take n, Function.update (Function.update s.tags last (some t)) i none⟩
  else ⟨s.elems.take n, Function.update s.tags i none⟩

/-- `ArraySet::remove`. -/
def ASet.remove (cap : ℕ) (s : ASet) (i : ℕ) : Out ASet := do
  require (i < cap)
  match s.tags i with
  | none => Out.throw
  | some t => ok (s.removeAt i t)

/-- State of the reservoirs of a simulation and of the systems that share it. -/
structure Pool where
  /-- number of species and their capacities -/
  nSp : ℕ
  cap : ℕ → ℕ
  /-- `reservoirs_[k]`, the top of the stack first -/
  res : ℕ → List ℕ
  /-- `moleculeSets_[k]` of system `S` -/
  set : ℕ → ℕ → ASet
  /-- `systemPtr_` of the molecules -/
  sys : ℕ → ℕ → Option ℕ

def Pool.setRes (p : Pool) (k : ℕ) (l : List ℕ) : Pool :=
  { p with res := Function.update p.res k l }

def Pool.setSet (p : Pool) (S k : ℕ) (s : ASet) : Pool :=
  { p with set := Function.update p.set S (Function.update (p.set S) k s) }

def Pool.setSys (p : Pool) (k i : ℕ) (x : Option ℕ) : Pool :=
  { p with sys := Function.update p.sys k (Function.update (p.sys k) i x) }

/-- `ArrayStack::push` for `reservoirs_[k]`. -/
def push (p : Pool) (k i : ℕ) : Out Pool := do
  require (k < p.nSp)
  check ((p.res k).length < p.cap k)
  ok (p.setRes k (i :: p.res k))

/-- The loop that fills a reservoir, Simulation.cpp:680-687: molecules are
pushed in order of decreasing index. -/
def fill (p : Pool) (k : ℕ) : Out Pool :=
  loop (fun p j => push p k (p.cap k - 1 - j)) (List.range (p.cap k)) p

/-- Reservoirs after `initializeSpeciesData`, empty systems. -/
def init (nSp : ℕ) (cap : ℕ → ℕ) : Out Pool :=
  loop fill (List.range nSp) ⟨nSp, cap, fun _ => [], fun _ _ => ASet.empty, fun _ _ => none⟩

/-- `Simulation::getMolecule`, Simulation.cpp:912-917; the stack throws if it
is empty. -/
def getMol (k : ℕ) (p : Pool) : Out (Pool × ℕ) := do
  require (k < p.nSp)
  match p.res k with
  | [] => Out.throw
  | i :: l => ok (p.setRes k l, i)

/-- `Simulation::returnMolecule`, Simulation.cpp:922-926. -/
def retMol (k i : ℕ) (p : Pool) : Out Pool := push p k i

/-- `System::addMolecule`, System.cpp:1113-1127, for system `S`. -/
def addMol (S k i : ℕ) (p : Pool) : Out Pool := do
  check (k < p.nSp)
  let s ← (p.set S k).append (p.cap k) i
  ok ((p.setSet S k s).setSys k i (some S))

/-- `System::removeMolecule`, System.cpp:1132-1146; `molecule.system()` asserts
that the molecule is in a system, Molecule.h:427-431. -/
def remMol (S k i : ℕ) (p : Pool) : Out Pool := do
  require ((p.sys k i).isSome = true)
  check (p.sys k i = some S)
  require (k < p.nSp)
  let s ← (p.set S k).remove (p.cap k) i
  ok ((p.setSet S k s).setSys k i none)

/-- Body of the while loop of `removeAllMolecules`, System.cpp:1174-1179. -/
def dropLast (S k : ℕ) (p : Pool) : Out Pool := do
  let n := (p.set S k).elems.length
  let i := (p.set S k).elems.getD (n - 1) 0
  let p ← remMol S k i p
  retMol k i p

/-- The while loop, as a loop over the number of molecules at its start: each
iteration removes one molecule (`C34_removeAll`), so that the condition
`nMol > 0` fails exactly after that number of iterations. -/
def dropSpecies (S : ℕ) (p : Pool) (k : ℕ) : Out Pool :=
  loop (fun p _ => dropLast S k p) (List.range (p.set S k).elems.length) p

/-- `System::removeAllMolecules`, System.cpp:1166-1189. -/
def removeAll (S : ℕ) (p : Pool) : Out Pool := loop (dropSpecies S) (List.range p.nSp) p

/-- `Generator::generate`, src/mcMd/generators/Generator.cpp:88-125: the list
gives, for each molecule, whether it could be placed (mutable species are not
modelled).  Returns false if a molecule could not be placed. -/
def generate (S k : ℕ) : List Bool → Pool → Out (Pool × Bool)
  | [], p => ok (p, true)
  | success :: rest, p => do
    let (p, i) ← getMol k p
    let p ← addMol S k i p
    if success then generate S k rest p
    else do
      let p ← remMol S k i p
      ok (p, false)

/-- `System::nMolecule`. -/
def nMolecule (p : Pool) (S k : ℕ) : ℕ := (p.set S k).elems.length

/-- `System::moleculeId`, System.cpp:1194-1200. -/
def moleculeId (p : Pool) (S k i : ℕ) : Option ℕ := (p.set S k).tags i

end Verif.McPool
