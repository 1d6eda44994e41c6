/-
Model of the molecular species of `src/simp/species` and of the mutable
homopolymer of `src/mcMd/species`.

Simplifications, common to the whole file:
* `int` is modelled by `ℤ` (no overflow).
* A species object is built once: the arrays are not yet allocated when a
  read or load function is called (a second call would throw in
  `allocateAtoms`).
* The list of group ids of each atom (`DArray< FSArray<int, Max> >`) is a
  function from atom index to list; its capacity is `nAtom_`, to which
  `allocateBonds` sets it.
* `SIMP_BOND` is always defined (`Linear.cpp` does not compile without);
  `SIMP_ANGLE` and `SIMP_DIHEDRAL` are the flags of `Cfg`.
-/
import Verif.Cpp.Outcome
import Mathlib.Data.Int.Basic
import Mathlib.Data.Rat.Defs

set_option autoImplicit false

namespace Verif.Species

open Verif.Cpp
open Verif.Cpp.Out

/-! ### Covalent groups and the structure of a species -/

/-- `SpeciesGroup<NAtom>`, src/simp/species/SpeciesGroup.h:69-150: atom ids
within the molecule and group type id.  The list has `NAtom` elements. -/
structure Grp where
  atoms : List ℤ
  typeId : ℤ
  deriving DecidableEq

/-- Default constructed group, SpeciesGroup.h:148-155: all indices are -1. -/
def nullGrp (N : ℕ) : Grp := ⟨List.replicate N (-1), -1⟩

/-- The data about one kind of group (bonds, angles or dihedrals) of a
species, Species.h: `nBond_`, `speciesBonds_`, `atomBondIdArrays_`. -/
structure Part where
  n : ℤ
  grps : List Grp
  ids : ℕ → List ℤ

/-- `FSArray` capacities, Species.h:78, 89, 100. -/
def maxBond : ℕ := 4
def maxAngle : ℕ := 18
def maxDihedral : ℕ := 72

/-- A kind of group that is absent (its count is 0 after construction,
Species.cpp:27-40). -/
def Part.none : Part := ⟨0, [], fun _ => []⟩

/-- The structural part of a `Species`, Species.h: `nAtom_`, `atomTypeIds_`
and the three kinds of groups. -/
structure Sp where
  nAtom : ℤ
  types : List ℤ
  bonds : Part
  angles : Part
  dihedrals : Part

/-- Compile-time options `SIMP_ANGLE`, `SIMP_DIHEDRAL`. -/
structure Cfg where
  angle : Bool
  dihedral : Bool
  deriving DecidableEq

/-- `allocateAtoms`, Species.cpp:497-508. -/
def allocAtoms (nAtom : ℤ) : Out (List ℤ) := do
  check (0 < nAtom)
  ok (List.replicate nAtom.toNat (-1))

/-- `allocateBonds`, `allocateAngles`, `allocateDihedrals`,
Species.cpp:520-531, 563-574, 609-620. -/
def allocPart (N : ℕ) (nAtom n : ℤ) : Out Part := do
  check (0 < nAtom)
  check (0 ≤ n)
  ok ⟨n, List.replicate n.toNat (nullGrp N), fun _ => []⟩

/-- `atomBondIdArrays_[atomId].append(bondId)` for one atom of a group.
`FSArray::append` throws if the array is full. -/
def appendId (cap : ℕ) (gid : ℕ) (ids : ℕ → List ℤ) (a : ℤ) : Out (ℕ → List ℤ) := do
  check ((ids a.toNat).length < cap)
  ok (Function.update ids a.toNat (ids a.toNat ++ [(gid : ℤ)]))

/-- `makeBond`, `makeAngle`, `makeDihedral`, Species.cpp:536-557, 579-604,
626-654: asserts on the indices, definition of the group, registration with
each of its atoms. -/
def makeGroup (cap : ℕ) (nAtom : ℤ) (p : Part) (gid : ℕ) (atoms : List ℤ)
    (typeId : ℤ) : Out Part := do
  require ((gid : ℤ) < p.n)
  require (∀ a ∈ atoms, 0 ≤ a ∧ a < nAtom)
  let ids ← loop (appendId cap gid) atoms p.ids
  ok { p with grps := p.grps.set gid ⟨atoms, typeId⟩, ids := ids }

/-- One section of `initializeAtomGroupIdArrays`, Species.cpp:227-305:
registration of all groups with their atoms, with range checks. -/
def initIds (cap : ℕ) (nAtom : ℤ) (p : Part) : Out Part := do
  check (0 ≤ p.n)
  if 0 < p.n then
    check ((p.grps.length : ℤ) = p.n)
    let ids ← loop (fun ids gid => do
      let g := p.grps.getD gid (nullGrp 0)
      check (∀ a ∈ g.atoms, 0 ≤ a ∧ a < nAtom)
      loop (appendId cap gid) g.atoms ids) (List.range p.n.toNat) p.ids
    ok { p with ids := ids }
  else
    ok p

/-! ### Validation -/

/-- The checks of `isValid` on one group, Species.cpp:686-728 (bonds),
761-789 (angles), 831-860 (dihedrals): each atom id is in range, differs from
the later ones, and has the group in its list.  For bonds the code makes the
two range checks before the comparison; the outcome is the same. -/
def checkGroup (nAtom : ℤ) (ids : ℕ → List ℤ) (gid : ℕ) : List ℤ → Out Unit
  | [] => ok ()
  | a :: rest => do
    check (0 ≤ a ∧ a < nAtom)
    check (a ∉ rest)
    check ((gid : ℤ) ∈ ids a.toNat)
    checkGroup nAtom ids gid rest

/-- The checks of `isValid` on one entry of the list of one atom,
Species.cpp:735-745, 796-813, 867-884; the counter is incremented. -/
def checkEntry (p : Part) (a : ℕ) (counter : ℤ) (gid : ℤ) : Out ℤ := do
  check (0 ≤ gid ∧ gid < p.n)
  check ((a : ℤ) ∈ (p.grps.getD gid.toNat (nullGrp 0)).atoms)
  ok (counter + 1)

/-- One section of `isValid`, Species.cpp:676-750, 752-818, 820-889. -/
def partValid (N : ℕ) (nAtom : ℤ) (p : Part) : Out Unit :=
  if 0 < p.n then do
    check ((p.grps.length : ℤ) = p.n)
    loop (fun (_ : Unit) (gid : ℕ) =>
      checkGroup nAtom p.ids gid (p.grps.getD gid (nullGrp 0)).atoms)
      (List.range p.n.toNat) ()
    let counter ← loop (fun (c : ℤ) (a : ℕ) => loop (checkEntry p a) (p.ids a) c)
      (List.range nAtom.toNat) 0
    check (counter = N * p.n)
  else
    ok ()

/-- The check of the atom types, Species.cpp:666-673: types of a non-mutable
species are not negative. -/
def checkTypes (mutable_ : Bool) (types : List ℤ) : Out Unit :=
  if mutable_ then ok () else check (∀ t ∈ types, 0 ≤ t)

/-- `Species::isValid`, Species.cpp:659-898, for an allocated species. -/
def isValid (mutable_ : Bool) (s : Sp) : Out Unit := do
  check ((s.types.length : ℤ) = s.nAtom)
  checkTypes mutable_ s.types
  partValid 2 s.nAtom s.bonds
  partValid 3 s.nAtom s.angles
  partValid 4 s.nAtom s.dihedrals

/-! ### Builders -/

/-- `for (i = 0; i < n; ++i) makeX(i, atoms(i)..., typeId(i))`. -/
def makeAll (cap : ℕ) (nAtom : ℤ) (atoms : ℕ → List ℤ) (typeId : ℕ → ℤ) (p : Part) :
    Out Part :=
  loop (fun p i => makeGroup cap nAtom p i (atoms i) (typeId i))
    (List.range p.n.toNat) p

/-- The same under a condition (`if (hasAngles_)`, `#ifdef`). -/
def makeIf (c : Prop) [Decidable c] (cap : ℕ) (nAtom : ℤ) (atoms : ℕ → List ℤ)
    (typeId : ℕ → ℤ) (p : Part) : Out Part :=
  if c then makeAll cap nAtom atoms typeId p else ok p

/-- Allocation under `#ifdef`. -/
def allocIf (c : Bool) (N : ℕ) (nAtom n : ℤ) : Out Part :=
  if c then allocPart N nAtom n else ok Part.none

/-- `setAtomType(i, calculateAtomTypeId(i))` for all atoms, Linear.cpp:74-77. -/
def setTypes (nAtom : ℤ) (types : List ℤ) (f : ℕ → Out ℤ) : Out (List ℤ) :=
  loop (fun ts i => do
    let t ← f i
    ok (ts.set i t)) (List.range nAtom.toNat) types

/-- `Linear::buildLinear`, Linear.cpp:39-103.  `hasA`, `hasD` are the members
`hasAngles_`, `hasDihedrals_` (0 if the feature is compiled out). -/
def buildLinear (nAtom nBond nAngle nDihedral hasA hasD : ℤ)
    (atomType : ℕ → Out ℤ) (bondType angleType dihedralType : ℤ) : Out Sp := do
  check (2 ≤ nAtom)
  check (nBond = nAtom - 1)
  check (hasA ≠ 0 → nAngle = nAtom - 2)
  check (hasD ≠ 0 → if 3 < nAtom then nDihedral = nAtom - 3 else nDihedral = 0)
  let ts ← allocAtoms nAtom
  let bonds ← allocPart 2 nAtom nBond
  let angles ← allocPart 3 nAtom nAngle
  let dihedrals ← allocPart 4 nAtom nDihedral
  let ts ← setTypes nAtom ts atomType
  let bonds ← makeAll maxBond nAtom (fun i => [(i : ℤ), i + 1]) (fun _ => bondType) bonds
  let angles ← makeIf (hasA ≠ 0) maxAngle nAtom (fun i => [(i : ℤ), i + 1, i + 2])
    (fun _ => angleType) angles
  let dihedrals ← makeIf (hasD ≠ 0) maxDihedral nAtom
    (fun i => [(i : ℤ), i + 1, i + 2, i + 3]) (fun _ => dihedralType) dihedrals
  ok ⟨nAtom, ts, bonds, angles, dihedrals⟩

/-- `Ring::buildRing`, Ring.cpp:31-80. -/
def buildRing (cfg : Cfg) (nAtom nBond nAngle nDihedral : ℤ)
    (atomType : ℕ → Out ℤ) (bondType angleType dihedralType : ℤ) : Out Sp := do
  check (3 ≤ nAtom)
  check (nBond = nAtom)
  check (cfg.angle = true → nAngle = nAtom)
  check (cfg.dihedral = true → nDihedral = nAtom)
  let ts ← allocAtoms nAtom
  let bonds ← allocPart 2 nAtom nBond
  let angles ← allocIf cfg.angle 3 nAtom nAngle
  let dihedrals ← allocIf cfg.dihedral 4 nAtom nDihedral
  let ts ← setTypes nAtom ts atomType
  let bonds ← makeAll maxBond nAtom
    (fun i => [(i : ℤ), (i + 1) % nAtom]) (fun _ => bondType) bonds
  let angles ← makeIf (cfg.angle = true) maxAngle nAtom
    (fun i => [(i : ℤ), (i + 1) % nAtom, (i + 2) % nAtom]) (fun _ => angleType) angles
  let dihedrals ← makeIf (cfg.dihedral = true) maxDihedral nAtom
    (fun i => [(i : ℤ), (i + 1) % nAtom, (i + 2) % nAtom, (i + 3) % nAtom])
    (fun _ => dihedralType) dihedrals
  ok ⟨nAtom, ts, bonds, angles, dihedrals⟩

/-! ### Parameter files

A parameter file is a list of labelled entries.  `read` requires the expected
label and throws otherwise; `readOptional` consumes the entry only if the
label is the expected one (Util::ParamComposite, in the absent submodule
src/util). -/

abbrev PFile := List (String × List ℤ)

/-- `readDArray<int>`, `readCArray<int>`. -/
def readArr (label : String) (n : ℤ) : PFile → Out (List ℤ × PFile)
  | [] => throw
  | (l, vs) :: f => do
    check (l = label ∧ (vs.length : ℤ) = n)
    ok (vs, f)

/-- `read<int>`. -/
def readInt (label : String) : PFile → Out (ℤ × PFile)
  | (l, [v]) :: f => do
    check (l = label)
    ok (v, f)
  | _ => throw

/-- `readOptional<int>` with a default value. -/
def readOpt (label : String) (dflt : ℤ) : PFile → Out (ℤ × PFile)
  | [] => ok (dflt, [])
  | (l, vs) :: f =>
    if l = label then
      match vs with
      | [v] => ok (v, f)
      | _ => throw
    else ok (dflt, (l, vs) :: f)

/-! ### Archives

An archive is a list of values.  Reading a value of the wrong kind, or past
the end, is a failure. -/

inductive Tok where
  | int (i : ℤ)
  | bool (b : Bool)
  | dbl (q : ℚ)
  deriving DecidableEq

def getInt : List Tok → Out (ℤ × List Tok)
  | Tok.int i :: r => ok (i, r)
  | _ => throw

def getBool : List Tok → Out (Bool × List Tok)
  | Tok.bool b :: r => ok (b, r)
  | _ => throw

def getDbl : List Tok → Out (ℚ × List Tok)
  | Tok.dbl q :: r => ok (q, r)
  | _ => throw

/-- `n` integers. -/
def getInts : ℕ → List Tok → Out (List ℤ × List Tok)
  | 0, r => ok ([], r)
  | n + 1, r => do
    let (i, r) ← getInt r
    let (l, r) ← getInts n r
    ok (i :: l, r)

def putInts (l : List ℤ) : List Tok := l.map Tok.int

/-- `ar << DArray<int>`: the capacity, then the elements. -/
def putArr (l : List ℤ) : List Tok := Tok.int l.length :: putInts l

/-- `loadDArray<int>(ar, label, array, n)` into an array allocated with
capacity `n`: the archived capacity must agree. -/
def getArr (n : ℤ) (r : List Tok) : Out (List ℤ × List Tok) := do
  let (c, r) ← getInt r
  check (c = n)
  getInts c.toNat r

/-- `Parameter::saveOptional(ar, value, isActive)`. -/
def putOpt (v : ℤ) (active : Bool) : List Tok :=
  if active then [Tok.bool true, Tok.int v] else [Tok.bool false]

/-- `loadParameter<int>(ar, label, value, false)`: value unchanged if it was
not active when saved. -/
def getOpt (dflt : ℤ) (r : List Tok) : Out (ℤ × List Tok) := do
  let (b, r) ← getBool r
  if b then getInt r else ok (dflt, r)

/-- An archived group: atom ids and type id (`serialize`, SpeciesGroup.h). -/
def putGrp (g : Grp) : List Tok := putInts g.atoms ++ [Tok.int g.typeId]

def getGrp (N : ℕ) (r : List Tok) : Out (Grp × List Tok) := do
  let (a, r) ← getInts N r
  let (t, r) ← getInt r
  ok (⟨a, t⟩, r)

def getGrps (N : ℕ) : ℕ → List Tok → Out (List Grp × List Tok)
  | 0, r => ok ([], r)
  | n + 1, r => do
    let (g, r) ← getGrp N r
    let (l, r) ← getGrps N n r
    ok (g :: l, r)

/-! ### Class `Species` itself -/

/-- A `Species` object: capacity and structure. -/
structure Base where
  capacity : ℤ
  sp : Sp

/-- Groups in a parameter file: `N` atom ids and the type id for each. -/
def groupsOf (N : ℕ) : ℕ → List ℤ → List Grp
  | 0, _ => []
  | n + 1, vs => ⟨vs.take N, vs.getD N (-1)⟩ :: groupsOf N n (vs.drop (N + 1))

/-- One of the three group sections of `readSpeciesParam`,
Species.cpp:86-92, 96-102, 106-112. -/
def readPart (N : ℕ) (nLabel gLabel : String) (nAtom : ℤ) (f : PFile) :
    Out (Part × PFile) := do
  let (n, f) ← readOpt nLabel 0 f
  let p ← allocPart N nAtom n
  if 0 < n then
    let (vs, f) ← readArr gLabel (n * (N + 1)) f
    ok ({ p with grps := groupsOf N n.toNat vs }, f)
  else
    ok (p, f)

/-- A section that is present only if compiled in. -/
def readPartIf (c : Bool) (N : ℕ) (nLabel gLabel : String) (nAtom : ℤ) (f : PFile) :
    Out (Part × PFile) :=
  if c then readPart N nLabel gLabel nAtom f else ok (Part.none, f)

/-- `Species::readParameters` with the default `readSpeciesParam`,
Species.cpp:51-60, 79-116. -/
def readBase (cfg : Cfg) (f : PFile) : Out (Base × PFile) := do
  let (capacity, f) ← readInt "moleculeCapacity" f
  let (nAtom, f) ← readInt "nAtom" f
  let _ ← allocAtoms nAtom
  let (ts, f) ← readArr "atomTypeIds" nAtom f
  let (b, f) ← readPart 2 "nBond" "speciesBonds" nAtom f
  let (a, f) ← readPartIf cfg.angle 3 "nAngle" "speciesAngles" nAtom f
  let (d, f) ← readPartIf cfg.dihedral 4 "nDihedral" "speciesDihedrals" nAtom f
  check (0 < nAtom)
  let b ← initIds maxBond nAtom b
  let a ← initIds maxAngle nAtom a
  let d ← initIds maxDihedral nAtom d
  let s : Sp := ⟨nAtom, ts, b, a, d⟩
  isValid false s
  ok (⟨capacity, s⟩, f)

/-- One of the group sections of `Species::save`, Species.cpp:315-332. -/
def putPart (p : Part) : List Tok :=
  Tok.int p.n :: (if 0 < p.n then
    Tok.int p.grps.length :: p.grps.flatMap putGrp else [])

/-- One of the group sections of `loadSpeciesParam`, Species.cpp:127-152. -/
def getPart (N : ℕ) (nAtom : ℤ) (r : List Tok) : Out (Part × List Tok) := do
  let (n, r) ← getInt r
  let p ← allocPart N nAtom n
  if 0 < n then
    let (c, r) ← getInt r
    check (c = n)
    let (gs, r) ← getGrps N c.toNat r
    ok ({ p with grps := gs }, r)
  else
    ok (p, r)

/-- A section that is present only if compiled in. -/
def getPartIf (c : Bool) (N : ℕ) (nAtom : ℤ) (r : List Tok) : Out (Part × List Tok) :=
  if c then getPart N nAtom r else ok (Part.none, r)

/-- `Species::save`, Species.cpp:310-333. -/
def saveBase (cfg : Cfg) (b : Base) : List Tok :=
  [Tok.int b.capacity, Tok.int b.sp.nAtom] ++ putArr b.sp.types ++ putPart b.sp.bonds
  ++ (if cfg.angle then putPart b.sp.angles else [])
  ++ (if cfg.dihedral then putPart b.sp.dihedrals else [])

/-- `Species::loadParameters` with the default `loadSpeciesParam`,
Species.cpp:65-74, 121-155. -/
def loadBase (cfg : Cfg) (r : List Tok) : Out (Base × List Tok) := do
  let (capacity, r) ← getInt r
  let (nAtom, r) ← getInt r
  let _ ← allocAtoms nAtom
  let (ts, r) ← getArr nAtom r
  let (b, r) ← getPart 2 nAtom r
  let (a, r) ← getPartIf cfg.angle 3 nAtom r
  let (d, r) ← getPartIf cfg.dihedral 4 nAtom r
  check (0 < nAtom)
  let b ← initIds maxBond nAtom b
  let a ← initIds maxAngle nAtom a
  let d ← initIds maxDihedral nAtom d
  let s : Sp := ⟨nAtom, ts, b, a, d⟩
  isValid false s
  ok (⟨capacity, s⟩, r)

/-! ### Linear species: optional angles and dihedrals -/

/-- Members of the linear species classes that describe the optional groups:
`hasAngles_`, `nAngle_`, `angleType_`, `hasDihedrals_`, `nDihedral_`,
`dihedralType_`. -/
structure Tail where
  hasA : ℤ
  nA : ℤ
  tA : ℤ
  hasD : ℤ
  nD : ℤ
  tD : ℤ
  deriving DecidableEq

/-- Angles: Homopolymer.cpp:41-54, Diblock.cpp:50-63, Multiblock.cpp:66-79. -/
def readAngles (cfg : Cfg) (nAtom : ℤ) (f : PFile) : Out ((ℤ × ℤ × ℤ) × PFile) :=
  if cfg.angle then do
    let (h, f) ← readOpt "hasAngles" 0 f
    if h ≠ 0 then
      check (3 ≤ nAtom)
      let (t, f) ← readInt "angleType" f
      ok ((h, nAtom - 2, t), f)
    else ok ((h, 0, -1), f)
  else ok ((0, 0, -1), f)

/-- Dihedrals: Homopolymer.cpp:56-69, Diblock.cpp:65-78, Multiblock.cpp:81-94. -/
def readDihedrals (cfg : Cfg) (nAtom : ℤ) (f : PFile) : Out ((ℤ × ℤ × ℤ) × PFile) :=
  if cfg.dihedral then do
    let (h, f) ← readOpt "hasDihedrals" 0 f
    if h ≠ 0 then
      check (4 ≤ nAtom)
      let (t, f) ← readInt "dihedralType" f
      ok ((h, nAtom - 3, t), f)
    else ok ((h, 0, -1), f)
  else ok ((0, 0, -1), f)

def readTail (cfg : Cfg) (nAtom : ℤ) (f : PFile) : Out (Tail × PFile) := do
  let (a, f) ← readAngles cfg nAtom f
  let (d, f) ← readDihedrals cfg nAtom f
  ok (⟨a.1, a.2.1, a.2.2, d.1, d.2.1, d.2.2⟩, f)

/-- Homopolymer.cpp:121-132 (`active = (hasAngles_ != 0)`) and
Diblock.cpp:138-149, Multiblock.cpp:176-187 (`active = true`). -/
def putTail (cfg : Cfg) (always : Bool) (t : Tail) : List Tok :=
  (if cfg.angle then putOpt t.hasA (always || decide (t.hasA ≠ 0))
    ++ (if t.hasA ≠ 0 ∧ 0 < t.nA then [Tok.int t.tA] else []) else [])
  ++ (if cfg.dihedral then putOpt t.hasD (always || decide (t.hasD ≠ 0))
    ++ (if t.hasD ≠ 0 ∧ 0 < t.nD then [Tok.int t.tD] else []) else [])

/-- Homopolymer.cpp:80-92: the angle type is loaded if there are angles. -/
def getAnglesHomo (cfg : Cfg) (nAtom : ℤ) (r : List Tok) : Out ((ℤ × ℤ × ℤ) × List Tok) :=
  if cfg.angle then do
    let (h, r) ← getOpt 0 r
    if h ≠ 0 then
      if 0 < nAtom - 2 then
        let (t, r) ← getInt r
        ok ((h, nAtom - 2, t), r)
      else ok ((h, nAtom - 2, -1), r)
    else ok ((h, 0, -1), r)
  else ok ((0, 0, -1), r)

/-- Homopolymer.cpp:93-107. -/
def getDihedralsHomo (cfg : Cfg) (nAtom : ℤ) (r : List Tok) : Out ((ℤ × ℤ × ℤ) × List Tok) :=
  if cfg.dihedral then do
    let (h, r) ← getOpt 0 r
    if h ≠ 0 then
      if 3 < nAtom then
        let (t, r) ← getInt r
        ok ((h, nAtom - 3, t), r)
      else ok ((h, 0, -1), r)
    else ok ((h, 0, -1), r)
  else ok ((0, 0, -1), r)

def getTailHomo (cfg : Cfg) (nAtom : ℤ) (r : List Tok) : Out (Tail × List Tok) := do
  let (a, r) ← getAnglesHomo cfg nAtom r
  let (d, r) ← getDihedralsHomo cfg nAtom r
  ok (⟨a.1, a.2.1, a.2.2, d.1, d.2.1, d.2.2⟩, r)

/-- Diblock.cpp:97-110, Multiblock.cpp:132-145. -/
def getAnglesBlock (cfg : Cfg) (nAtom : ℤ) (r : List Tok) : Out ((ℤ × ℤ × ℤ) × List Tok) :=
  if cfg.angle then do
    let (h, r) ← getOpt 0 r
    if h ≠ 0 then
      check (3 ≤ nAtom)
      let (t, r) ← getInt r
      ok ((h, nAtom - 2, t), r)
    else ok ((h, 0, -1), r)
  else ok ((0, 0, -1), r)

/-- Diblock.cpp:111-124, Multiblock.cpp:146-159. -/
def getDihedralsBlock (cfg : Cfg) (nAtom : ℤ) (r : List Tok) : Out ((ℤ × ℤ × ℤ) × List Tok) :=
  if cfg.dihedral then do
    let (h, r) ← getOpt 0 r
    if h ≠ 0 then
      check (4 ≤ nAtom)
      let (t, r) ← getInt r
      ok ((h, nAtom - 3, t), r)
    else ok ((h, 0, -1), r)
  else ok ((0, 0, -1), r)

def getTailBlock (cfg : Cfg) (nAtom : ℤ) (r : List Tok) : Out (Tail × List Tok) := do
  let (a, r) ← getAnglesBlock cfg nAtom r
  let (d, r) ← getDihedralsBlock cfg nAtom r
  ok (⟨a.1, a.2.1, a.2.2, d.1, d.2.1, d.2.2⟩, r)

/-- `buildLinear()` called with `nBond_ = nAtom_ - 1` and the members of the
tail. -/
def buildTail (nAtom : ℤ) (atomType : ℕ → Out ℤ) (bondType : ℤ) (t : Tail) : Out Sp :=
  buildLinear nAtom (nAtom - 1) t.nA t.nD t.hasA t.hasD atomType bondType t.tA t.tD

/-! ### Homopolymer -/

structure Homo where
  capacity : ℤ
  nAtom : ℤ
  atomType : ℤ
  bondType : ℤ
  tail : Tail
  sp : Sp

/-- `Homopolymer::readSpeciesParam` within `readParameters`,
Homopolymer.cpp:33-71, Species.cpp:51-60. -/
def readHomo (cfg : Cfg) (f : PFile) : Out (Homo × PFile) := do
  let (capacity, f) ← readInt "moleculeCapacity" f
  let (nAtom, f) ← readInt "nAtom" f
  let (at_, f) ← readInt "atomType" f
  let (bt, f) ← readInt "bondType" f
  let (t, f) ← readTail cfg nAtom f
  let s ← buildTail nAtom (fun _ => ok at_) bt t
  isValid false s
  ok (⟨capacity, nAtom, at_, bt, t, s⟩, f)

/-- `Homopolymer::save`, Homopolymer.cpp:115-133. -/
def saveHomo (cfg : Cfg) (h : Homo) : List Tok :=
  [Tok.int h.capacity, Tok.int h.nAtom, Tok.int h.atomType, Tok.int h.bondType]
  ++ putTail cfg false h.tail

/-- `Homopolymer::loadSpeciesParam` within `loadParameters`,
Homopolymer.cpp:74-110, Species.cpp:65-74. -/
def loadHomo (cfg : Cfg) (r : List Tok) : Out (Homo × List Tok) := do
  let (capacity, r) ← getInt r
  let (nAtom, r) ← getInt r
  let (at_, r) ← getInt r
  let (bt, r) ← getInt r
  let (t, r) ← getTailHomo cfg nAtom r
  let s ← buildTail nAtom (fun _ => ok at_) bt t
  isValid false s
  ok (⟨capacity, nAtom, at_, bt, t, s⟩, r)

/-! ### Diblock -/

structure Diblock where
  capacity : ℤ
  len0 : ℤ
  len1 : ℤ
  type0 : ℤ
  type1 : ℤ
  bondType : ℤ
  tail : Tail
  sp : Sp

/-- `Diblock::calculateAtomTypeId`, Diblock.cpp:155-162. -/
def diblockType (len0 t0 t1 : ℤ) (i : ℕ) : Out ℤ :=
  ok (if (i : ℤ) < len0 then t0 else t1)

/-- `readCArray<int>` of two elements. -/
def readTwo (label : String) (f : PFile) : Out ((ℤ × ℤ) × PFile) := do
  let (v, f) ← readArr label 2 f
  ok ((v.getD 0 0, v.getD 1 0), f)

/-- `Diblock::readSpeciesParam` within `readParameters`, Diblock.cpp:38-81. -/
def readDiblock (cfg : Cfg) (f : PFile) : Out (Diblock × PFile) := do
  let (capacity, f) ← readInt "moleculeCapacity" f
  let (l, f) ← readTwo "blockLengths" f
  check (1 ≤ l.1)
  check (1 ≤ l.2)
  let (a, f) ← readTwo "atomTypes" f
  let (bt, f) ← readInt "bondType" f
  let (t, f) ← readTail cfg (l.1 + l.2) f
  let s ← buildTail (l.1 + l.2) (diblockType l.1 a.1 a.2) bt t
  isValid false s
  ok (⟨capacity, l.1, l.2, a.1, a.2, bt, t, s⟩, f)

/-- `Diblock::save`, Diblock.cpp:132-150.  `ar.pack(array, 2)` writes the
elements only. -/
def saveDiblock (cfg : Cfg) (d : Diblock) : List Tok :=
  [Tok.int d.capacity, Tok.int d.len0, Tok.int d.len1, Tok.int d.type0, Tok.int d.type1,
   Tok.int d.bondType] ++ putTail cfg true d.tail

/-- `Diblock::loadSpeciesParam` within `loadParameters`, Diblock.cpp:86-127. -/
def loadDiblock (cfg : Cfg) (r : List Tok) : Out (Diblock × List Tok) := do
  let (capacity, r) ← getInt r
  let (l0, r) ← getInt r
  let (l1, r) ← getInt r
  check (1 ≤ l0)
  check (1 ≤ l1)
  let (t0, r) ← getInt r
  let (t1, r) ← getInt r
  let (bt, r) ← getInt r
  let (t, r) ← getTailBlock cfg (l0 + l1) r
  let s ← buildTail (l0 + l1) (diblockType l0 t0 t1) bt t
  isValid false s
  ok (⟨capacity, l0, l1, t0, t1, bt, t, s⟩, r)

/-! ### Multiblock -/

structure Multi where
  capacity : ℤ
  nBlock : ℤ
  lens : List ℤ
  types : List ℤ
  begins : List ℤ
  bondType : ℤ
  tail : Tail
  sp : Sp

/-- `blockBegin_`, Multiblock.cpp:52-59: each begin is the previous one plus
the previous length. -/
def blockBegins (start : ℤ) : List ℤ → List ℤ
  | [] => []
  | l :: ls => start :: blockBegins (start + l) ls

/-- The loop of `calculateAtomTypeId`, Multiblock.cpp:193-205, over the begins
and types of the blocks. -/
def multiLoop (i : ℤ) (t : ℤ) : List ℤ → List ℤ → ℤ
  | b :: bs, a :: as => if b ≤ i then multiLoop i a bs as else t
  | _, _ => t

/-- `Multiblock::calculateAtomTypeId` with its assertion. -/
def multiType (begins types : List ℤ) (i : ℕ) : Out ℤ := do
  let t := multiLoop i (-1) begins types
  require (0 ≤ t)
  ok t

/-- The sum of the block lengths, Multiblock.cpp:60-63. -/
def sumLens (ls : List ℤ) : ℤ := ls.foldl (· + ·) 0

/-- `Multiblock::readSpeciesParam` within `readParameters`,
Multiblock.cpp:35-97.  `DArray::allocate` throws for a non-positive size. -/
def readMulti (cfg : Cfg) (f : PFile) : Out (Multi × PFile) := do
  let (capacity, f) ← readInt "moleculeCapacity" f
  let (n, f) ← readInt "nBlock" f
  check (0 < n)
  let (ls, f) ← readArr "blockLengths" n f
  check (∀ l ∈ ls, 1 ≤ l)
  let (ts, f) ← readArr "atomTypes" n f
  check (∀ t ∈ ts, 0 ≤ t)
  let (bt, f) ← readInt "bondType" f
  let (t, f) ← readTail cfg (sumLens ls) f
  let s ← buildTail (sumLens ls) (multiType (blockBegins 0 ls) ts) bt t
  isValid false s
  ok (⟨capacity, n, ls, ts, blockBegins 0 ls, bt, t, s⟩, f)

/-- `Multiblock::save`, Multiblock.cpp:169-188. -/
def saveMulti (cfg : Cfg) (m : Multi) : List Tok :=
  [Tok.int m.capacity] ++ putArr m.lens ++ putArr m.types ++ putArr m.begins
  ++ [Tok.int m.bondType] ++ putTail cfg true m.tail

/-- `Multiblock::loadSpeciesParam` within `loadParameters`,
Multiblock.cpp:102-164. -/
def loadMulti (cfg : Cfg) (r : List Tok) : Out (Multi × List Tok) := do
  let (capacity, r) ← getInt r
  let (n, r) ← getInt r
  check (0 < n)
  let (ls, r) ← getArr n r
  check (∀ l ∈ ls, 1 ≤ l)
  let (ts, r) ← getArr n r
  check (∀ t ∈ ts, 0 ≤ t)
  let (bt, r) ← getInt r
  let (t, r) ← getTailBlock cfg (sumLens ls) r
  let s ← buildTail (sumLens ls) (multiType (blockBegins 0 ls) ts) bt t
  isValid false s
  ok (⟨capacity, n, ls, ts, blockBegins 0 ls, bt, t, s⟩, r)

/-! ### HomoRing -/

structure Ring where
  capacity : ℤ
  nAtom : ℤ
  type : ℤ
  sp : Sp

/-- `buildRing()` for a `HomoRing`, HomoRing.cpp:30-37: type ids of the groups
are 0 (HomoRing.cpp:71-94). -/
def buildHomoRing (cfg : Cfg) (nAtom type : ℤ) : Out Sp :=
  buildRing cfg nAtom nAtom (if cfg.angle then nAtom else 0)
    (if cfg.dihedral then nAtom else 0) (fun _ => ok type) 0 0 0

/-- `HomoRing::readSpeciesParam` within `readParameters`, HomoRing.cpp:26-38. -/
def readRing (cfg : Cfg) (f : PFile) : Out (Ring × PFile) := do
  let (capacity, f) ← readInt "moleculeCapacity" f
  let (nAtom, f) ← readInt "nAtom" f
  let (type, f) ← readInt "type" f
  let s ← buildHomoRing cfg nAtom type
  isValid false s
  ok (⟨capacity, nAtom, type, s⟩, f)

/-- `HomoRing::save`, HomoRing.cpp:60-66: the species id is written first. -/
def saveRing (id : ℤ) (h : Ring) : List Tok :=
  [Tok.int id, Tok.int h.capacity, Tok.int h.nAtom, Tok.int h.type]

/-- `HomoRing::loadSpeciesParam` within `loadParameters`, HomoRing.cpp:43-55,
Species.cpp:65-74: no id is read. -/
def loadRing (cfg : Cfg) (r : List Tok) : Out (Ring × List Tok) := do
  let (capacity, r) ← getInt r
  let (nAtom, r) ← getInt r
  let (type, r) ← getInt r
  let s ← buildHomoRing cfg nAtom type
  isValid false s
  ok (⟨capacity, nAtom, type, s⟩, r)

/-! ### Point -/

structure Point where
  capacity : ℤ
  type : ℤ
  sp : Sp

/-- `allocate(); atomTypeIds_[0] = type_`, Point.cpp:29-34, with `nAtom_ = 1`
and no groups. -/
def buildPoint (cfg : Cfg) (type : ℤ) : Out Sp := do
  let ts ← allocAtoms 1
  let b ← allocPart 2 1 0
  let a ← allocIf cfg.angle 3 1 0
  let d ← allocIf cfg.dihedral 4 1 0
  ok ⟨1, ts.set 0 type, b, a, d⟩

/-- `Point::readSpeciesParam` within `readParameters`, Point.cpp:29-34. -/
def readPoint (cfg : Cfg) (f : PFile) : Out (Point × PFile) := do
  let (capacity, f) ← readInt "moleculeCapacity" f
  let (type, f) ← readInt "type" f
  let s ← buildPoint cfg type
  isValid false s
  ok (⟨capacity, type, s⟩, f)

/-- `Point::save`, Point.cpp:49-53. -/
def savePoint (p : Point) : List Tok := [Tok.int p.capacity, Tok.int p.type]

/-- `Point::loadSpeciesParam` within `loadParameters`, Point.cpp:39-44. -/
def loadPoint (cfg : Cfg) (r : List Tok) : Out (Point × List Tok) := do
  let (capacity, r) ← getInt r
  let (type, r) ← getInt r
  let s ← buildPoint cfg type
  isValid false s
  ok (⟨capacity, type, s⟩, r)

/-! ### HomopolymerSG -/

/-- Structural members of `HomopolymerSG`; the pair of atom types and the
weight ratio are read after the structure. -/
structure HomoSG where
  capacity : ℤ
  nAtom : ℤ
  bondType : ℤ
  tail : Tail
  sp : Sp

/-- Angle and dihedral sections of `HomopolymerSG::readSpeciesParam`,
src/mcMd/species/HomopolymerSG.cpp:58-84 (also LinearSG.cpp:62-86): the
second section resets `hasAngles_` instead of `hasDihedrals_` and reads the
label `angleType` into `angleType_`. -/
def readTailSG (cfg : Cfg) (nAtom : ℤ) (f : PFile) : Out (Tail × PFile) := do
  let (a, f) ← readAngles cfg nAtom f
  if cfg.dihedral then
    let (h, f) ← readOpt "hasDihedrals" 0 f
    if h ≠ 0 then
      check (4 ≤ nAtom)
      let (t, f) ← readInt "angleType" f
      ok (⟨0, a.2.1, t, h, nAtom - 3, -1⟩, f)
    else ok (⟨0, a.2.1, a.2.2, h, 0, -1⟩, f)
  else ok (⟨a.1, a.2.1, a.2.2, 0, 0, -1⟩, f)

/-- `HomopolymerSG::readParameters` up to the end of the structure, followed by
`isValid` for a mutable species, HomopolymerSG.cpp:51-86, Species.cpp:51-60. -/
def readHomoSG (cfg : Cfg) (f : PFile) : Out (HomoSG × PFile) := do
  let (capacity, f) ← readInt "moleculeCapacity" f
  let (nAtom, f) ← readInt "nAtom" f
  let (bt, f) ← readInt "bondType" f
  let (t, f) ← readTailSG cfg nAtom f
  let s ← buildTail nAtom (fun _ => ok (-1)) bt t
  isValid true s
  ok (⟨capacity, nAtom, bt, t, s⟩, f)

end Verif.Species
