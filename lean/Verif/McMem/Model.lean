/-
Global arrays of molecules, atoms and covalent groups in mcMd simulations:
`Simulation::initializeSpeciesData` and the functions it calls
(src/mcMd/simulation/Simulation.cpp:435-893), `Molecule`, `Atom`, `Group`,
`Mask` (src/mcMd/chemistry) and `Activate` (src/mcMd/chemistry/Activate.cpp).

Pointers into an array are indices.  Simplifications: the fields of an atom
other than those listed are omitted; int overflow of the total capacities is
not modelled; the three copies of the group code (bonds, angles, dihedrals) are
one definition with a parameter `Kind`.
-/
import Verif.Species.Model

set_option autoImplicit false

namespace Verif.McMem

open Verif.Cpp
open Verif.Cpp.Out
open Verif.Species (Sp Part Grp nullGrp)

/-- Bonds, angles and dihedrals. -/
inductive Kind where
  | bond
  | angle
  | dihedral
  deriving DecidableEq

/-- Groups of one kind in a species. -/
def partOf (s : Sp) : Kind → Part
  | .bond => s.bonds
  | .angle => s.angles
  | .dihedral => s.dihedrals

/-- A species registered with the simulation: `id()`, `capacity()` and its
structure. -/
structure Spec where
  id : ℤ
  capacity : ℤ
  sp : Sp

/-- Data members of `Molecule` (Molecule.h:350-395) other than the system. -/
structure MolRec where
  species : ℕ
  id : ℕ
  nAtom : ℕ
  firstAtom : ℕ
  num : Kind → ℕ
  /-- `firstBondPtr_` etc.; `none` is the null pointer -/
  first : Kind → Option ℕ

/-- `Molecule()`: no species, no groups. -/
def MolRec.new : MolRec := ⟨0, 0, 0, 0, fun _ => 0, fun _ => none⟩

/-- `Atom` with its `Mask` and `isActive` flag, both in static arrays of
`Atom` (Atom.cpp:60-110). -/
structure AtomRec where
  mol : Option ℕ
  typeId : ℤ
  mask : List ℕ
  active : Bool

/-- `Atom::allocate`, Atom.cpp:60-110: atoms are active initially. -/
def AtomRec.new : AtomRec := ⟨none, -1, [], true⟩

/-- `Group<N>`: pointers to atoms, type and `nInActive_` (Group.h:110-120). -/
structure GrpRec where
  atoms : List ℕ
  typeId : ℤ
  nInactive : ℤ

/-- Constructor, Group.h:155-163; null pointers are represented by the empty
list. -/
def GrpRec.new : GrpRec := ⟨[], -1, 0⟩

/-- The global arrays `molecules_`, `atoms_`, `bonds_`, `angles_`,
`dihedrals_` with their capacities. -/
structure Mem where
  nMol : ℕ
  nAtom : ℕ
  nGrp : Kind → ℕ
  mol : ℕ → MolRec
  atom : ℕ → AtomRec
  grp : Kind → ℕ → GrpRec

/-- Assignment to an element of an array. -/
def Mem.setMol (mem : Mem) (m : ℕ) (r : MolRec) : Mem :=
  { mem with mol := Function.update mem.mol m r }

def Mem.setAtom (mem : Mem) (a : ℕ) (r : AtomRec) : Mem :=
  { mem with atom := Function.update mem.atom a r }

def Mem.setGrp (mem : Mem) (k : Kind) (p : ℕ) (r : GrpRec) : Mem :=
  { mem with grp := Function.update mem.grp k (Function.update (mem.grp k) p r) }

/-! ### Capacities -/

/-- Indices of the first objects of the block of one species:
`firstMoleculeIds_`, `firstAtomIds_`, `firstBondIds_`, .... -/
structure Slot where
  idx : ℕ
  s : Spec
  fm : ℕ
  fa : ℕ
  fg : Kind → ℕ

/-- Capacities counted so far. -/
structure Total where
  nm : ℕ
  na : ℕ
  ng : Kind → ℕ

/-- The loop over species, Simulation.cpp:510-571.  `on kind` says that the
number of types of that kind is positive.  `reservoirs_[i].allocate(c)` throws
if `c` is not positive. -/
def layout (on : Kind → Bool) : ℕ → Total → List Spec → Out (List Slot × Total)
  | _, t, [] => ok ([], t)
  | i, t, s :: rest => do
    check (s.id = (i : ℤ))
    check (0 < s.capacity)
    let c := s.capacity.toNat
    let t' : Total := ⟨t.nm + c, t.na + c * s.sp.nAtom.toNat, fun k =>
      if on k then t.ng k + c * (partOf s.sp k).n.toNat else t.ng k⟩
    let (l, tt) ← layout on (i + 1) t' rest
    ok (⟨i, s, t.nm, t.na, t.ng⟩ :: l, tt)

/-! ### Molecules and atoms -/

/-- Body of the loop over atoms, Simulation.cpp:670-674. -/
def atomStep (m : ℕ) (types : List ℤ) (st : Mem × ℕ) (i : ℕ) : Out (Mem × ℕ) := do
  require (st.2 < st.1.nAtom)
  ok (st.1.setAtom st.2
    { st.1.atom st.2 with mol := some m, typeId := types.getD i (-1) }, st.2 + 1)

/-- Body of the loop over molecules, Simulation.cpp:661-677. -/
def molStep (k : ℕ) (sp : Sp) (st : Mem × ℕ × ℕ) (iMol : ℕ) : Out (Mem × ℕ × ℕ) := do
  require (st.2.1 < st.1.nMol)
  let mem := st.1.setMol st.2.1
    { st.1.mol st.2.1 with species := k, id := iMol, nAtom := sp.nAtom.toNat, firstAtom := st.2.2 }
  let (mem, a) ← loop (atomStep st.2.1 sp.types) (List.range sp.nAtom.toNat) (mem, st.2.2)
  ok (mem, st.2.1 + 1, a)

/-- `initializeSpeciesMolecules` without the reservoirs (see `McPool`),
Simulation.cpp:639-678. -/
def initMols (mem : Mem) (sl : Slot) : Out Mem := do
  let (mem, _, _) ← loop (molStep sl.idx sl.s.sp) (List.range sl.s.capacity.toNat)
    (mem, sl.fm, sl.fa)
  ok mem

/-! ### Groups -/

/-- `Mask::append`, Mask.cpp:42-53, for the mask of atom `a`. -/
def appendMask (mem : Mem) (a b : ℕ) : Out Mem := do
  require (a < mem.nAtom)
  check ((mem.atom a).mask.length < 4)
  check (b ∉ (mem.atom a).mask)
  ok (mem.setAtom a { mem.atom a with mask := (mem.atom a).mask ++ [b] })

/-- Masking of bonded atoms, Simulation.cpp:742-747. -/
def maskBond (masked : Bool) (k : Kind) (ptrs : List ℕ) (mem : Mem) : Out Mem :=
  match masked, k, ptrs with
  | true, .bond, [a0, a1] => do
    let mem ← appendMask mem a0 a1
    appendMask mem a1 a0
  | _, _, _ => ok mem

/-- Body of the loop over the groups of a molecule, Simulation.cpp:726-750,
803-824, 866-890. -/
def grpStep (masked : Bool) (k : Kind) (gs : List Grp) (first : ℕ) (st : Mem × ℕ) (i : ℕ) :
    Out (Mem × ℕ) := do
  let g := gs.getD i (nullGrp 0)
  require (∀ a ∈ g.atoms, 0 ≤ a)
  require (st.2 < st.1.nGrp k)
  let ptrs := g.atoms.map fun a => first + a.toNat
  let mem := st.1.setGrp k st.2 { st.1.grp k st.2 with atoms := ptrs, typeId := g.typeId }
  let mem ← maskBond masked k ptrs mem
  ok (mem, st.2 + 1)

/-- Body of the loop over molecules, Simulation.cpp:717-755, 795-829,
858-892. -/
def kindMolStep (masked : Bool) (k : Kind) (sp : Sp) (st : Mem × ℕ × ℕ) (_iMol : ℕ) :
    Out (Mem × ℕ × ℕ) := do
  require (st.2.1 < st.1.nMol)
  let mem := st.1.setMol st.2.1
    { st.1.mol st.2.1 with
      num := Function.update (st.1.mol st.2.1).num k (partOf sp k).n.toNat
      first := Function.update (st.1.mol st.2.1).first k (some st.2.2) }
  let (mem, p) ← loop (grpStep masked k (partOf sp k).grps (mem.mol st.2.1).firstAtom)
    (List.range (partOf sp k).n.toNat) (mem, st.2.2)
  ok (mem, st.2.1 + 1, p)

/-- `initializeSpeciesBonds`, `initializeSpeciesAngles`,
`initializeSpeciesDihedrals`, Simulation.cpp:694-758, 768-832, 838-893. -/
def initKind (masked : Bool) (k : Kind) (mem : Mem) (sl : Slot) : Out Mem := do
  let (mem, _, _) ← loop (kindMolStep masked k sl.s.sp) (List.range sl.s.capacity.toNat)
    (mem, sl.fm, sl.fg k)
  ok mem

/-- The loop over species for one kind, if the number of types is positive,
Simulation.cpp:586-598, 601-613, 616-628. -/
def initKindIf (on : Bool) (masked : Bool) (k : Kind) (slots : List Slot) (mem : Mem) : Out Mem :=
  if on then loop (initKind masked k) slots mem else ok mem

/-- `Simulation::initializeSpeciesData`, Simulation.cpp:435-632. -/
def initData (on : Kind → Bool) (masked : Bool) (sps : List Spec) : Out (Mem × List Slot) := do
  check (0 < sps.length)
  let (slots, t) ← layout on 0 ⟨0, 0, fun _ => 0⟩ sps
  let mem : Mem := ⟨t.nm, t.na, fun k => if on k then max 1 (t.ng k) else 0,
    fun _ => MolRec.new, fun _ => AtomRec.new, fun _ _ => GrpRec.new⟩
  let mem ← loop initMols slots mem
  let mem ← initKindIf (on .bond) masked .bond slots mem
  let mem ← initKindIf (on .angle) masked .angle slots mem
  let mem ← initKindIf (on .dihedral) masked .dihedral slots mem
  ok (mem, slots)

/-! ### Activation -/

/-- Number of inactive atoms of a group as counted by `checkInactive`,
Group.h:220-231. -/
def inactiveAtoms (mem : Mem) (g : GrpRec) : ℕ :=
  g.atoms.countP fun a => !(mem.atom a).active

/-- `molecule.bond(i)` etc., Molecule.h:482-560: the assertions, and the
pointer. -/
def groupPtr (mem : Mem) (m : ℕ) (k : Kind) (i : ℤ) : Out ℕ :=
  match (mem.mol m).first k with
  | none => ub
  | some f => do
    require (0 ≤ i ∧ i < ((mem.mol m).num k : ℤ))
    ok (f + i.toNat)

/-- `incrementInactive` / `decrementInactive` with its assertion and that of
the caller, Activate.cpp:48-51, 95-98. -/
def bump (up : Bool) (N : ℕ) (m : ℕ) (k : Kind) (mem : Mem) (i : ℤ) : Out Mem := do
  let p ← groupPtr mem m k i
  let g := mem.grp k p
  require (if up then g.nInactive < (N : ℤ) else 0 < g.nInactive)
  let g' : GrpRec := { g with nInactive := g.nInactive + if up then 1 else -1 }
  check ((inactiveAtoms mem g' : ℤ) = g'.nInactive)
  ok (mem.setGrp k p g')

def Kind.size : Kind → ℕ
  | .bond => 2
  | .angle => 3
  | .dihedral => 4

/-- One section of `deactivate`/`reactivate`, Activate.cpp:46-53: it depends on
the number of groups of the *species*. -/
def bumpKind (comp : Bool) (up : Bool) (k : Kind) (sp : Sp) (m i : ℕ) (mem : Mem) : Out Mem :=
  if comp = true ∧ (partOf sp k).n ≠ 0 then loop (bump up k.size m k) ((partOf sp k).ids i) mem else ok mem

/-- `Activate::deactivate` and `Activate::reactivate`, Activate.cpp:31-73,
78-121.  `comp k` says that the kind is compiled in. -/
def setActive (comp : Kind → Bool) (sps : List Spec) (a : ℕ) (flag : Bool) (mem : Mem) :
    Out Mem := do
  check ((mem.atom a).active ≠ flag)
  let mem := mem.setAtom a { mem.atom a with active := flag }
  match (mem.atom a).mol with
  | none => ub
  | some m =>
    match sps[(mem.mol m).species]? with
    | none => ub
    | some s => do
      let i := a - (mem.mol m).firstAtom
      let mem ← bumpKind (comp .bond) (!flag) .bond s.sp m i mem
      let mem ← bumpKind (comp .angle) (!flag) .angle s.sp m i mem
      bumpKind (comp .dihedral) (!flag) .dihedral s.sp m i mem

/-- `Activate::activate(Molecule&)`, Activate.cpp:126-147. -/
def activate (m : ℕ) (mem : Mem) : Mem :=
  let r := mem.mol m
  { mem with
    atom := fun a =>
      if r.firstAtom ≤ a ∧ a < r.firstAtom + r.nAtom then { mem.atom a with active := true }
      else mem.atom a
    grp := fun k p =>
      match r.first k with
      | none => mem.grp k p
      | some f => if f ≤ p ∧ p < f + r.num k then { mem.grp k p with nInactive := 0 }
        else mem.grp k p }

end Verif.McMem
