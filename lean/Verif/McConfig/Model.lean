/-
Configuration files and the configuration part of restart archives of mcMd:
`McMdConfigIo`, `McConfigIo`, `MdConfigIo` (src/mcMd/configIos) and `System::readConfig`, `writeConfig`,
`saveConfig`, `loadConfig` (src/mcMd/simulation/System.cpp:706-840).

A text stream is a list of tokens; numbers are written and read exactly, white
space is not modelled.  A failed extraction, which sets the fail bit of the
stream, ends the operation here.  Molecules are taken from the reservoirs of
`McPool`, links are those of `McLink`, boundaries those of `Boundary`.  Code for
`SIMP_TETHER` (whose sources are not in the repository) and `MCMD_SHIFT` is not
modelled.
-/
import Verif.McPool.Props
import Verif.McLink.Props
import Verif.Boundary.IO
import Verif.Species.Structure

set_option autoImplicit false

namespace Verif.McConfig

open Verif.Cpp
open Verif.Cpp.Out
open Verif.Boundary (Vec Ortho Mono)
open Verif.McPool (Pool getMol addMol removeAll)
open Verif.McLink (LM addLink)

/-! ### Streams -/

/-- A token of a text stream; `bd` are numbers and names of lattice systems. -/
inductive Tok where
  | lab (s : String)
  | int (z : ℤ)
  | bd (t : Boundary.Tok)

/-- `operator << (ostream&, Vector)`. -/
def wrVec (v : Vec) : List Tok := [.bd (.num (v 0)), .bd (.num (v 1)), .bd (.num (v 2))]

/-- `operator >> (istream&, Vector)`. -/
def rdVec : List Tok → Out (Vec × List Tok)
  | .bd (.num x) :: .bd (.num y) :: .bd (.num z) :: ws => ok (![x, y, z], ws)
  | _ => throw

/-- Formatted extraction of an integer. -/
def rdInt : List Tok → Out (ℤ × List Tok)
  | .int z :: ws => ok (z, ws)
  | _ => throw

/-- Formatted extraction of a floating point number. -/
def rdNum : List Tok → Out (ℝ × List Tok)
  | .bd (.num x) :: ws => ok (x, ws)
  | _ => throw

/-- `in >> Label(s)`. -/
def rdLab (s : String) : List Tok → Out (List Tok)
  | .lab t :: ws => if t = s then ok ws else throw
  | _ => throw

/-- Extraction of a string. -/
def rdStr : List Tok → Out (String × List Tok)
  | .lab t :: ws => ok (t, ws)
  | _ => throw

/-- `OptionalLabel(s).match(in)`: a word that does not match is kept for the
next label. -/
def optLab (s : String) : List Tok → Bool × List Tok
  | .lab t :: ws => if t = s then (true, ws) else (false, .lab t :: ws)
  | ws => (false, ws)

/-- `in >> Label(s) >> n`. -/
def rdCount (s : String) (ws : List Tok) : Out (ℤ × List Tok) := do
  let ws ← rdLab s ws
  rdInt ws

def Tok.bd? : Tok → Option Boundary.Tok
  | .bd t => some t
  | _ => none

/-- What the programs use of the boundary for which they were compiled. -/
structure BoxIO (B : Type) where
  /-- states that the interface of the boundary can reach -/
  Good : B → Prop
  print : B → List Boundary.Tok
  parse : B → List Boundary.Tok → Option (B × List Boundary.Tok)
  save : B → List Boundary.Item
  load : B → List Boundary.Item → Option (B × List Boundary.Item)
  shift : B → Vec → Vec
  lengths : B → Vec
  setOrtho : B → Vec → B

/-- Code compiled with `OrthorhombicBoundary`. -/
noncomputable def orthoIO : BoxIO Ortho :=
  ⟨Ortho.Reach, Ortho.print, Ortho.parse, Ortho.save, Ortho.load, Ortho.shift, Ortho.lengths,
    Ortho.setOrthorhombic⟩

/-- Code compiled with `MonoclinicBoundary`. -/
noncomputable def monoIO : BoxIO Mono :=
  ⟨Mono.Reach, Mono.print, Mono.parse, Mono.save, Mono.load, Mono.shift, Mono.lengths,
    Mono.setOrthorhombic⟩

variable {B : Type}

/-- `in >> boundary()`, for a text in which the tokens of the boundary are
followed by a word: only these tokens can be extracted as its parts. -/
def rdBox (io : BoxIO B) (b : B) (ws : List Tok) : Out (B × List Tok) :=
  let ts := (ws.map Tok.bd?).takeWhile Option.isSome
  match io.parse b (ts.filterMap id) with
  | none => throw
  | some (b', r) => ok (b', ws.drop (ts.length - r.length))

/-! ### State -/

structure Atom where
  pos : Vec
  vel : Vec
  typ : ℤ

/-- A molecule: its atoms in order, and the state id of a molecule of a mutable
species, `none` if it is `NullStateId`. -/
structure Mol where
  atom : ℕ → Atom
  state : Option ℕ

def Mol.setAtom (m : Mol) (a : ℕ) (x : Atom) : Mol := { m with atom := Function.update m.atom a x }

/-- Constants of a simulation. -/
structure Sim where
  nSp : ℕ
  cap : ℕ → ℕ
  /-- atoms, bonds, angles, dihedrals of a molecule of a species -/
  nAtom : ℕ → ℕ
  nBond : ℕ → ℕ
  nAngle : ℕ → ℕ
  nDihedral : ℕ → ℕ
  /-- `Species::atomTypeId(i)` -/
  atomType : ℕ → ℕ → ℤ
  isMutable : ℕ → Bool
  /-- `nState_` of a mutable species, and the types of atoms of a molecule in a state:
  `typeIds_` (HomopolymerSG), `beadTypeIds0_` and `beadTypeIds1_` (LinearSG) -/
  nState : ℕ → ℕ
  stateType : ℕ → ℕ → ℕ → ℤ
  nAtomType : ℕ
  nBondType : ℕ
  nAngleType : ℕ
  nDihedralType : ℕ
  /-- structure of the molecules of a species as used by `writeStructure` -/
  cfg : Species.Cfg
  sp : ℕ → Species.Sp
  /-- compiled with `MCMD_LINK` -/
  useLinks : Bool
  /-- see `McLink` -/
  strict : Bool
  /-- index in `atoms_` of an atom given by species, molecule and index in the
  molecule, and the inverse: `Atom::id`, `Atom::molecule`, `Atom::indexInMolecule` -/
  atomId : ℕ → ℕ → ℕ → ℕ
  owner : ℕ → ℕ × ℕ × ℕ

/-- State of the simulation as far as configuration files are concerned. -/
structure St (B : Type) where
  box : B
  pool : Pool
  /-- molecule `i` of species `k` -/
  mol : ℕ → ℕ → Mol
  /-- `stateOccupancies_` -/
  occ : ℕ → ℕ → ℤ
  lm : LM

def St.setMol (s : St B) (k i : ℕ) (m : Mol) : St B :=
  { s with mol := Function.update s.mol k (Function.update (s.mol k) i m) }

/-- Ids of the molecules of species `k` in system `S`. -/
abbrev St.ids (s : St B) (S k : ℕ) : List ℕ := (s.pool.set S k).elems

/-- `system().molecule(k, j)`. -/
abbrev St.molAt (s : St B) (S k j : ℕ) : Mol := s.mol k ((s.ids S k).getD j 0)

/-- Occupancies after `setMoleculeStateId`, SpeciesMutator.cpp:64-68. -/
def newOcc (occ : ℕ → ℤ) (old : Option ℕ) (c : ℕ) : ℕ → ℤ :=
  let o := match old with
    | none => occ
    | some d => Function.update occ d (occ d - 1)
  Function.update o c (o c + 1)

/-- `HomopolymerSG::setMoleculeState`, src/mcMd/species/HomopolymerSG.cpp:214-221,
and `LinearSG::setMoleculeState`, LinearSG.cpp:222-236, with `setMoleculeStateId`,
SpeciesMutator.cpp:57-69.  `typeIds_` is indexed before the state is checked, and
occupancies are indexed by the state (so that `LinearSG` throws for a negative
number other than -1, which is not distinguished here). -/
def setState (w : Sim) (k i : ℕ) (z : ℤ) (s : St B) : Out (St B) := do
  require (0 ≤ z ∧ z < w.nState k)
  let m := s.mol k i
  let m' : Mol :=
    ⟨fun a => if a < w.nAtom k then { m.atom a with typ := w.stateType k z.toNat a } else m.atom a,
      some z.toNat⟩
  ok { s.setMol k i m' with occ := Function.update s.occ k (newOcc (s.occ k) m.state z.toNat) }

/-- `moleculeStateId`. -/
def stateNum : Option ℕ → ℤ
  | none => -1
  | some c => c

/-- `molPtr = &simulation().getMolecule(k); system().addMolecule(*molPtr);` and,
if `chk`, `if (molPtr != &system().molecule(k, j)) UTIL_THROW(...)`, for example
McMdConfigIo.cpp:74-83. -/
def takeMol (chk : Bool) (S k j : ℕ) (p : Pool) : Out (Pool × ℕ) := do
  let (p, i) ← getMol k p
  let p ← addMol S k i p
  if chk then do
    require (j < (p.set S k).elems.length)
    check ((p.set S k).elems.getD j 0 = i)
    ok (p, i)
  else ok (p, i)

/-- Loop over the atoms of a molecule; `f a` reads the atom with index `a` from
a stream. -/
def rdAtoms {σ : Type} (f : ℕ → Atom → σ → Out (Atom × σ)) (n : ℕ) (m : Mol) (ws : σ) :
    Out (Mol × σ) :=
  loop (fun (x : Mol × σ) a => do
    let (at', ws) ← f a (x.1.atom a) x.2
    ok (x.1.setAtom a at', ws)) (List.range n) (m, ws)

/-! ### Files of McMdConfigIo -/

/-- `McConfigIo::writeAtom`, McConfigIo.cpp:42-43, and `MdConfigIo::writeAtom`,
MdConfigIo.cpp:50-60. -/
def wrAtom (md : Bool) (x : Atom) : List Tok := wrVec x.pos ++ if md then wrVec x.vel else []

/-- `McConfigIo::readAtom`, McConfigIo.cpp:33-37, and `MdConfigIo::readAtom`,
MdConfigIo.cpp:35-45. -/
def rdAtom (io : BoxIO B) (b : B) (md : Bool) (x : Atom) (ws : List Tok) :
    Out (Atom × List Tok) := do
  let (r, ws) ← rdVec ws
  if md then do
    let (v, ws) ← rdVec ws
    ok ({ x with pos := io.shift b r, vel := v }, ws)
  else ok ({ x with pos := io.shift b r }, ws)

/-- Body of the loop over molecules of `write`, McMdConfigIo.cpp:207-219. -/
def wrMol (w : Sim) (md : Bool) (k j : ℕ) (m : Mol) : List Tok :=
  [.lab "molecule", .int j] ++
    (if w.isMutable k then [.lab "stateId", .int (stateNum m.state)] else []) ++
    (List.range (w.nAtom k)).flatMap fun a => wrAtom md (m.atom a)

/-- Body of the loop over species of `write`, McMdConfigIo.cpp:199-220. -/
def wrSpecies (w : Sim) (md : Bool) (S k : ℕ) (s : St B) : List Tok :=
  [.lab "species", .int k, .lab "nMolecule", .int (s.ids S k).length] ++
    (List.range (s.ids S k).length).flatMap fun j => wrMol w md k j (s.molAt S k j)

/-- `system().moleculeId(*molPtr)`: -1 if the molecule is not in the system. -/
def idNum : Option ℕ → ℤ
  | none => -1
  | some t => t

/-- One end of a link, McMdConfigIo.cpp:262-268. -/
def wrEnd (w : Sim) (S : ℕ) (s : St B) (x : ℕ) : List Tok :=
  [.int (w.owner x).1, .int (idNum ((s.pool.set S (w.owner x).1).tags (w.owner x).2.1)),
    .int (w.owner x).2.2]

/-- One link; the pointers to its atoms are dereferenced. -/
def wrLink (w : Sim) (S : ℕ) (s : St B) (i : ℕ) : Out (List Tok) := do
  let x ← McLink.deref (s.lm.link i).a0
  let y ← McLink.deref (s.lm.link i).a1
  ok (wrEnd w S s x ++ wrEnd w S s y ++ [.int (s.lm.link i).typeId])

/-- The LINKS section, McMdConfigIo.cpp:246-283 and SmpConfigIo.cpp:342-379. -/
def wrLinks (w : Sim) (S : ℕ) (s : St B) : Out (List Tok) :=
  if w.useLinks then
    loop (fun ts i => do
      let l ← wrLink w S s i
      ok (ts ++ l)) s.lm.set.elems [.lab "LINKS", .lab "nLink", .int (McLink.nLink s.lm)]
  else ok []

/-- `McMdConfigIo::write`, McMdConfigIo.cpp:181-285. -/
def writeMcMd (io : BoxIO B) (w : Sim) (md : Bool) (S : ℕ) (s : St B) : Out (List Tok) := do
  let ls ← wrLinks w S s
  ok ([.lab "BOUNDARY"] ++ (io.print s.box).map Tok.bd ++ [.lab "MOLECULES"] ++
    ((List.range w.nSp).flatMap fun k => wrSpecies w md S k s) ++ ls)

/-- `readMoleculeState` if the species is mutable, McMdConfigIo.cpp:86-88 and
SpeciesMutator.cpp:84-89. -/
def rdState (w : Sim) (k i : ℕ) (s : St B) (ws : List Tok) : Out (St B × List Tok) :=
  if w.isMutable k then do
    let ws ← rdLab "stateId" ws
    let (z, ws) ← rdInt ws
    let s ← setState w k i z s
    ok (s, ws)
  else ok (s, ws)

/-- Body of the loop over molecules of `read`, McMdConfigIo.cpp:71-95. -/
def rdMol (io : BoxIO B) (w : Sim) (md : Bool) (S k : ℕ) (x : St B × List Tok) (j : ℕ) :
    Out (St B × List Tok) := do
  let (jIn, ws) ← rdCount "molecule" x.2
  let (p, i) ← takeMol true S k j x.1.pool
  check (jIn = j)
  let (s, ws) ← rdState w k i { x.1 with pool := p } ws
  let (m, ws) ← rdAtoms (fun _ => rdAtom io s.box md) (w.nAtom k) (s.mol k i) ws
  ok (s.setMol k i m, ws)

/-- Body of the loop over species of `read`, McMdConfigIo.cpp:63-96. -/
def rdSpecies (io : BoxIO B) (w : Sim) (md : Bool) (S : ℕ) (x : St B × List Tok) (k : ℕ) :
    Out (St B × List Tok) := do
  let (kIn, ws) ← rdCount "species" x.2
  check (kIn = k)
  let (n, ws) ← rdCount "nMolecule" ws
  loop (rdMol io w md S k) (List.range n.toNat) (x.1, ws)

/-- One end of a link, McMdConfigIo.cpp:139-154. -/
def rdEnd (w : Sim) (S : ℕ) (s : St B) (ws : List Tok) : Out (ℕ × List Tok) := do
  let (k, ws) ← rdInt ws
  let (j, ws) ← rdInt ws
  let (a, ws) ← rdInt ws
  check (0 ≤ k ∧ k < w.nSp)
  check (0 ≤ j ∧ j < (s.ids S k.toNat).length)
  check (0 ≤ a ∧ a < w.nAtom k.toNat)
  ok (w.atomId k.toNat ((s.ids S k.toNat).getD j.toNat 0) a.toNat, ws)

/-- Body of the loop over links, McMdConfigIo.cpp:136-175. -/
def rdLink (w : Sim) (S : ℕ) (x : St B × List Tok) (_ : ℕ) : Out (St B × List Tok) := do
  let (a, ws) ← rdEnd w S x.1 x.2
  let (b, ws) ← rdEnd w S x.1 ws
  let (t, ws) ← rdInt ws
  let lm ← addLink w.strict a b t x.1.lm
  ok ({ x.1 with lm := lm }, ws)

/-- The LINKS section, McMdConfigIo.cpp:126-178. -/
def rdLinks (w : Sim) (S : ℕ) (s : St B) (ws : List Tok) : Out (St B × List Tok) :=
  if w.useLinks then
    match optLab "LINKS" ws with
    | (false, ws) => ok (s, ws)
    | (true, ws) => do
      let (n, ws) ← rdCount "nLink" ws
      loop (rdLink w S) (List.range n.toNat) (s, ws)
  else ok (s, ws)

/-- `McMdConfigIo::read`, McMdConfigIo.cpp:46-180. -/
def readMcMd (io : BoxIO B) (w : Sim) (md : Bool) (S : ℕ) (s : St B) (ws : List Tok) :
    Out (St B × List Tok) := do
  let ws ← rdLab "BOUNDARY" ws
  let (b, ws) ← rdBox io s.box ws
  let ws ← rdLab "MOLECULES" ws
  let (s, ws) ← loop (rdSpecies io w md S) (List.range w.nSp) ({ s with box := b }, ws)
  rdLinks w S s ws

/-- `System::isEmpty`, System.cpp:1153-1160. -/
def isEmpty (w : Sim) (S : ℕ) (s : St B) : Prop := ∀ k < w.nSp, s.ids S k = []

/-- `System::removeAllMolecules`, System.cpp:1166-1189. -/
def clearSystem (w : Sim) (S : ℕ) (s : St B) : Out (St B) := do
  let p ← removeAll S s.pool
  let lm ← if w.useLinks then McLink.clear s.lm else ok s.lm
  ok { s with pool := p, lm := lm }

open Classical in
/-- Molecules are removed unless there are none, System.cpp:813. -/
noncomputable def emptied (w : Sim) (S : ℕ) (s : St B) : Out (St B) :=
  if isEmpty w S s then ok s else clearSystem w S s

/-- `System::readConfig`, System.cpp:811-823, with the `read` of a ConfigIo. -/
noncomputable def readConfig (w : Sim) (S : ℕ)
    (read : St B → List Tok → Out (St B × List Tok)) (s : St B) (ws : List Tok) :
    Out (St B × List Tok) := do
  let s ← emptied w S s
  read s ws

/-! ### Archives -/

/-- A value in a binary archive. -/
inductive Val where
  | box (x : Boundary.Item)
  | int (z : ℤ)
  | vec (v : Vec)

def Val.box? : Val → Option Boundary.Item
  | .box x => some x
  | _ => none

/-- `ar >> boundary()`; the values of the boundary are followed by an integer. -/
def ldBox (io : BoxIO B) (b : B) (vs : List Val) : Out (B × List Val) :=
  let ts := (vs.map Val.box?).takeWhile Option.isSome
  match io.load b (ts.filterMap id) with
  | none => throw
  | some (b', r) => ok (b', vs.drop (ts.length - r.length))

def ldInt : List Val → Out (ℤ × List Val)
  | .int z :: vs => ok (z, vs)
  | _ => throw

def ldVec : List Val → Out (Vec × List Val)
  | .vec v :: vs => ok (v, vs)
  | _ => throw

/-- One molecule in `saveConfig`, System.cpp:782-797; the positions have been
shifted into the cell. -/
def svMol (w : Sim) (k : ℕ) (m : Mol) : List Val :=
  (if w.isMutable k then [.int (stateNum m.state)] else []) ++
    (List.range (w.nAtom k)).flatMap fun a => [.vec (m.atom a).pos, .vec (m.atom a).vel]

/-- One species in `saveConfig`, System.cpp:768-798. -/
def svSpecies (w : Sim) (S k : ℕ) (s : St B) : List Val :=
  [.int k, .int (s.ids S k).length] ++
    (List.range (s.ids S k).length).flatMap fun j => svMol w k (s.molAt S k j)

open Classical in
/-- The effect of `saveConfig` on the system: the positions of its atoms are
shifted into the primary cell, System.cpp:788-792.  Each atom is visited once,
before it is written; here the shifts are made first. -/
noncomputable def wrapAll (io : BoxIO B) (w : Sim) (S : ℕ) (s : St B) : St B :=
  { s with mol := fun k i =>
      if k < w.nSp ∧ i ∈ s.ids S k then
        { s.mol k i with atom := fun a =>
            if a < w.nAtom k then
              { (s.mol k i).atom a with pos := io.shift s.box ((s.mol k i).atom a).pos }
            else (s.mol k i).atom a }
      else s.mol k i }

/-- `System::saveConfig`, System.cpp:755-800: the state afterwards and the
values written. -/
noncomputable def saveConfig (io : BoxIO B) (w : Sim) (S : ℕ) (s : St B) : St B × List Val :=
  let s' := wrapAll io w S s
  (s', (io.save s'.box).map Val.box ++ (List.range w.nSp).flatMap fun k => svSpecies w S k s')

/-- Body of the loop over atoms of `loadConfig`, System.cpp:739-746. -/
def ldAtom (io : BoxIO B) (b : B) (x : Atom) (vs : List Val) : Out (Atom × List Val) := do
  let (r, vs) ← ldVec vs
  let (v, vs) ← ldVec vs
  ok ({ x with pos := io.shift b r, vel := v }, vs)

/-- State of a molecule of a mutable species, System.cpp:734-737. -/
def ldState (w : Sim) (k i : ℕ) (s : St B) (vs : List Val) : Out (St B × List Val) :=
  if w.isMutable k then do
    let (z, vs) ← ldInt vs
    let s ← setState w k i z s
    ok (s, vs)
  else ok (s, vs)

/-- Body of the loop over molecules of `loadConfig`, System.cpp:728-747. -/
def ldMol (io : BoxIO B) (w : Sim) (S k : ℕ) (x : St B × List Val) (j : ℕ) :
    Out (St B × List Val) := do
  let (p, i) ← takeMol true S k j x.1.pool
  let (s, vs) ← ldState w k i { x.1 with pool := p } x.2
  let (m, vs) ← rdAtoms (fun _ => ldAtom io s.box) (w.nAtom k) (s.mol k i) vs
  ok (s.setMol k i m, vs)

/-- Body of the loop over species of `loadConfig`, System.cpp:717-748. -/
def ldSpecies (io : BoxIO B) (w : Sim) (S : ℕ) (x : St B × List Val) (k : ℕ) :
    Out (St B × List Val) := do
  let (kIn, vs) ← ldInt x.2
  check (kIn = k)
  let (n, vs) ← ldInt vs
  loop (ldMol io w S k) (List.range n.toNat) (x.1, vs)

/-- `System::loadConfig`, System.cpp:706-750. -/
def loadConfig (io : BoxIO B) (w : Sim) (S : ℕ) (s : St B) (vs : List Val) :
    Out (St B × List Val) := do
  let (b, vs) ← ldBox io s.box vs
  loop (ldSpecies io w S) (List.range w.nSp) ({ s with box := b }, vs)

end Verif.McConfig
