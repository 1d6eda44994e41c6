/-
Containers of the postprocessor: mdPp/storage/{AtomStorage,SpeciesStorage,Configuration}.cpp, and the
loop over atoms of mdPp/config/SmpConfigReader.cpp.

Of an atom only the indices are modelled.  Pointers to atoms are indices in `atoms_`.  Simplified:
the fields `atoms_`, `id_` and `speciesPtr_` of a molecule, which are set by `initialize` and never
changed, are not modelled; arrays are those of a library whose sources are not in the repository, and
`resize` beyond the capacity is undefined behaviour, as is an access out of range.
-/
import Verif.Cpp.Outcome
import Mathlib.Algebra.BigOperators.Group.Finset.Basic
import Mathlib.Algebra.BigOperators.Intervals
import Mathlib.Algebra.Order.BigOperators.Group.Finset
import Mathlib.Data.Finset.Card
import Mathlib.Tactic.Linarith

set_option autoImplicit false

namespace Verif.PpStore

open Verif.Cpp
open Verif.Cpp.Out

/-- Indices of an atom, chemistry/Atom.h:24-58. -/
structure Atom where
  id : ℤ
  sp : ℤ
  mol : ℤ
  idx : ℤ

/-- Species, molecule and atom indices. -/
def Atom.ctx (a : Atom) : ℤ × ℤ × ℤ := (a.sp, a.mol, a.idx)

/-- `AtomStorage`, AtomStorage.h:95-104: `mem` is the memory of `atoms_`, of which the first `size`
are in use; `new` is `newPtr_`. -/
structure Store where
  cap : ℕ
  mem : ℕ → Atom
  size : ℕ
  ptrs : ℕ → Option ℕ
  new : Option ℕ

/-- `AtomStorage::clear`, AtomStorage.cpp:65-72. -/
def Store.clear (s : Store) : Store := { s with size := 0, ptrs := fun _ => none }

/-- `AtomStorage::newPtr`, AtomStorage.cpp:39-48. -/
def Store.newPtr (s : Store) : Out (Store × ℕ) :=
  if s.new.isSome then throw
  else if s.size < s.cap then ok ({ s with size := s.size + 1, new := some s.size }, s.size)
  else ub

/-- `AtomStorage::add`, AtomStorage.cpp:53-61. -/
def Store.add (s : Store) : Out Store :=
  match s.new with
  | none => throw
  | some k =>
    let id := (s.mem k).id
    if 0 ≤ id ∧ id < s.cap then
      ok { s with ptrs := Function.update s.ptrs id.toNat (some k), new := none }
    else ub

/-- Assignment to the atom at position `k`. -/
def Store.set (s : Store) (k : ℕ) (a : Atom) : Store := { s with mem := Function.update s.mem k a }

/-- Numbers on the line of an atom in a file. -/
structure Line where
  id : ℤ
  sp : ℤ
  mol : ℤ
  idx : ℤ

/-- Body of the loop over atoms, SmpConfigReader.cpp:124-171; `i` is the loop index. -/
def readAtom (hasIndex ordered context : Bool) (s : Store) (i : ℕ) (l : Line) : Out Store := do
  let (s, k) ← s.newPtr
  let a := s.mem k
  let a ← if hasIndex then do
      check (0 ≤ l.id)
      check (ordered = true → l.id = i)
      check (l.id < s.cap)
      ok { a with id := l.id }
    else ok a
  let a ← if context then do
      check (0 ≤ l.sp)
      check (0 ≤ l.mol)
      check (0 ≤ l.idx)
      ok { a with sp := l.sp, mol := l.mol, idx := l.idx }
    else ok a
  (s.set k a).add

/-- The loop over atoms, SmpConfigReader.cpp:119-172. -/
def readAtoms (hasIndex ordered context : Bool) (n : ℕ) (lines : ℕ → Line) (s : Store) : Out Store :=
  loop (fun s i => readAtom hasIndex ordered context s i (lines i)) (List.range n) s

/-- `SpeciesStorage`, SpeciesStorage.h:108-125, with `id_`, `capacity()` and `nAtom_` of the species;
`count m` is `nAtom_` of molecule `m`, `size` the size of `molecules_`. -/
structure Spec where
  id : ℕ
  cap : ℕ
  nAtom : ℕ
  ptrs : ℕ → Option ℕ
  count : ℕ → ℕ
  size : ℕ

/-- `SpeciesStorage::clear`, SpeciesStorage.cpp:73-83. -/
def Spec.clear (p : Spec) : Spec := { p with ptrs := fun _ => none, count := fun _ => 0, size := 0 }

/-- `SpeciesStorage::addAtom`, SpeciesStorage.cpp:88-117. -/
def Spec.addAtom (p : Spec) (k : ℕ) (a : Atom) : Out Spec := do
  check (a.sp = p.id)
  check (0 ≤ a.mol)
  check (a.mol < p.cap)
  check (0 ≤ a.idx)
  check (a.idx < p.nAtom)
  let gid := a.mol.toNat * p.nAtom + a.idx.toNat
  check (p.ptrs gid = none)
  ok { p with
    ptrs := Function.update p.ptrs gid (some k)
    size := if p.size ≤ a.mol.toNat then a.mol.toNat + 1 else p.size
    count := Function.update p.count a.mol.toNat (p.count a.mol.toNat + 1) }

/-- Body of the loop over molecules of `isValid`, SpeciesStorage.cpp:143-180. -/
def Spec.validMol (p : Spec) (mem : ℕ → Atom) (m : ℕ) : Out Unit :=
  if p.count m = p.nAtom then
    loop (fun _ a =>
      match p.ptrs (m * p.nAtom + a) with
      | none => throw
      | some k => do
        check ((mem k).idx = a)
        check ((mem k).mol = m)
        check ((mem k).sp = p.id)) (List.range p.nAtom) ()
  else if p.count m = 0 then
    loop (fun _ a => check (p.ptrs (m * p.nAtom + a) = none)) (List.range p.nAtom) ()
  else throw

/-- `SpeciesStorage::isValid`, SpeciesStorage.cpp:128-184. -/
def Spec.isValid (p : Spec) (mem : ℕ → Atom) : Out Unit := do
  check (0 < p.cap)
  loop (fun _ m => p.validMol mem m) (List.range p.size) ()

/-- Parts of `Configuration`, Configuration.h. -/
structure Conf where
  atoms : Store
  nSp : ℕ
  sp : ℕ → Spec

/-- Number of atoms of all molecules of the first `s` species, Configuration.cpp:163-166. -/
def Conf.offset (c : Conf) (s : ℕ) : ℕ := ∑ t ∈ Finset.range s, (c.sp t).nAtom * (c.sp t).cap

/-- Body of the innermost loop of `setAtomContexts`, Configuration.cpp:181-189; the state is the
storage and the running `id`. -/
def setContext (s m : ℕ) (x : Store × ℕ) (a : ℕ) : Out (Store × ℕ) := do
  require (x.2 < x.1.cap)
  match x.1.ptrs x.2 with
  | none => throw
  | some k => ok (x.1.set k ⟨(x.1.mem k).id, s, m, a⟩, x.2 + 1)

/-- `Configuration::setAtomContexts`, Configuration.cpp:157-195. -/
def Conf.setAtomContexts (c : Conf) : Out Conf := do
  check (0 < c.nSp)
  check (c.atoms.size = c.offset c.nSp)
  let x ← loop (fun x s => loop (fun x m => loop (setContext s m) (List.range (c.sp s).nAtom) x)
    (List.range (c.sp s).cap) x) (List.range c.nSp) (c.atoms, 0)
  ok { c with atoms := x.1 }

/-- Body of the loop over atoms of `addAtomsToSpecies`, Configuration.cpp:210-219. -/
def Conf.addAtom (c : Conf) (k : ℕ) : Out Conf := do
  let a := c.atoms.mem k
  check (0 ≤ a.sp)
  check (a.sp < c.nSp)
  let p ← (c.sp a.sp.toNat).addAtom k a
  ok { c with sp := Function.update c.sp a.sp.toNat p }

/-- `Configuration::addAtomsToSpecies`, Configuration.cpp:201-220. -/
def Conf.addAtomsToSpecies (c : Conf) : Out Conf := do
  check (0 < c.nSp)
  loop Conf.addAtom (List.range c.atoms.size) { c with sp := fun s => (c.sp s).clear }

/-- A group of a species: type and indices of atoms in the molecule (simp/species/SpeciesGroup.h). -/
structure Template where
  typ : ℤ
  atoms : List ℕ

/-- A `Group<N>` of the configuration, chemistry/Group.h. -/
structure Group where
  id : ℕ
  typ : ℤ
  atoms : List ℕ
  deriving DecidableEq

/-- `makeSpeciesGroups`, Configuration.cpp:369-395, with the storage, `firstAtomId` and `groupId`. -/
def makeSpeciesGroups (cap : ℕ) (ts : List Template) (nMol nAtom : ℕ) (x : List Group × ℕ × ℕ) :
    Out (List Group × ℕ × ℕ) :=
  loop (fun x _ => do
    let y ← loop (fun (y : List Group × ℕ × ℕ) (t : Template) => do
      require (y.1.length < cap)
      ok (y.1 ++ [⟨y.2.2, t.typ, t.atoms.map (y.2.1 + ·)⟩], y.2.1, y.2.2 + 1)) ts x
    ok (y.1, y.2.1 + nAtom, y.2.2)) (List.range nMol) x

/-- `makeBonds`, `makeAngles` and `makeDihedrals`, Configuration.cpp:240-365: `groups` is the storage
before, `cap` its capacity. -/
def Conf.makeGroups (c : Conf) (ts : ℕ → List Template) (cap : ℕ) (groups : List Group) :
    Out (List Group) := do
  let total := ∑ s ∈ Finset.range c.nSp, (c.sp s).cap * (ts s).length
  if total = 0 then ok groups
  else do
    let cap := if cap = 0 then total else cap
    check (total ≤ cap)
    let x ← loop (fun x s => makeSpeciesGroups cap (ts s) (c.sp s).cap (c.sp s).nAtom x)
      (List.range c.nSp) (groups, 0, 0)
    ok x.1

/-- What a `SPECIES` block does to one species: `Species::setCapacity` (simp/species/Species.cpp:462-469)
and `SpeciesStorage::initialize` (SpeciesStorage.cpp:30-68), as called by SmpConfigReader.cpp:62-77.
`readStructure` sets `nAtom`; the arrays are allocated if `p.cap` is positive. -/
def Spec.read (p : Spec) (nMolecule nAtom : ℕ) : Out Spec := do
  check (¬ 0 < p.cap)
  check (0 < nMolecule)
  check (0 < nAtom)
  ok { p with cap := nMolecule, nAtom := nAtom, ptrs := fun _ => none, count := fun _ => 0, size := 0 }

/-- The word after `format` in a file written by SmpConfigWriter.cpp:71-80: no white space is written
before the label `nAtom` (which is followed by the number, in a field of ten). -/
def writtenFormat (context : Bool) : String := (if context then "itmpv" else "itpv") ++ "nAtom"

/-- `FlagSet::setActualOrdered` for the flags "itmpvs", SmpConfigReader.cpp:91-93: the characters must
be flags, in order. -/
def readFormat (f : String) : Out Unit := check (f.toList.Sublist ['i', 't', 'm', 'p', 'v', 's'])

end Verif.PpStore
