/-
Other formats of configuration files of mcMd: `SmpConfigIo`, `DdMdConfigIo` and
`LammpsConfigIo` (src/mcMd/configIos).

`FlagSet` and `Label` are in a library whose sources are not in the repository;
a format string is accepted if its characters occur in "itmpvs" in this order.
Code is taken to be compiled with `SIMP_BOND`; `MCMD_SHIFT` is not modelled (the
shifts of a file are read and dropped).
-/
import Verif.McConfig.Model

set_option autoImplicit false

namespace Verif.McConfig

open Verif.Cpp
open Verif.Cpp.Out
open Verif.Boundary (Vec)

variable {B : Type}

/-- Loop body common to the three readers: a molecule is taken from the
reservoir, and `f box i j a` reads atom `a` of molecule `i`, which is the `j`th of
the system. -/
def rdBody {σ : Type} (w : Sim) (chk : Bool) (S k : ℕ)
    (f : B → ℕ → ℕ → ℕ → Atom → σ → Out (Atom × σ)) (x : St B × σ) (j : ℕ) :
    Out (St B × σ) := do
  let (p, i) ← takeMol chk S k j x.1.pool
  let (m, ws) ← rdAtoms (f x.1.box i j) (w.nAtom k) (x.1.mol k i) x.2
  ok ({ x.1 with pool := p }.setMol k i m, ws)

/-- Loops over species and molecules; `n k` molecules of species `k` are read. -/
def rdSystem {σ : Type} (w : Sim) (chk : Bool) (S : ℕ) (n : ℕ → ℕ)
    (f : ℕ → B → ℕ → ℕ → ℕ → Atom → σ → Out (Atom × σ)) (x : St B × σ) : Out (St B × σ) :=
  loop (fun x k => loop (rdBody w chk S k (f k)) (List.range (n k)) x) (List.range w.nSp) x

/-- Text of all atoms of a system: `f k i j a x` is the text of atom `a`, with
contents `x`, of molecule `i` of species `k`, the `j`th of the system. -/
def wrSystem (w : Sim) (S : ℕ) (s : St B) (f : ℕ → ℕ → ℕ → ℕ → Atom → List Tok) : List Tok :=
  (List.range w.nSp).flatMap fun k => (List.range (s.ids S k).length).flatMap fun j =>
    (List.range (w.nAtom k)).flatMap fun a =>
      f k ((s.ids S k).getD j 0) j a ((s.molAt S k j).atom a)

/-- Number of atoms of system `S`, for example DdMdConfigIo.cpp:135-138. -/
def nAtomOf (w : Sim) (S : ℕ) (s : St B) : ℕ :=
  ((List.range w.nSp).map fun k => (s.ids S k).length * w.nAtom k).sum

/-- `atomCapacity`, for example DdMdConfigIo.cpp:56-59. -/
def atomCap (w : Sim) : ℕ := ((List.range w.nSp).map fun k => w.cap k * w.nAtom k).sum

/-- Groups of one kind of the molecules of a system: type and atom ids, in the
order in which they are written, for example DdMdConfigIo.cpp:193-207. -/
def groupsOf (w : Sim) (S : ℕ) (s : St B) (part : Species.Sp → Species.Part) :
    List (ℤ × List ℤ) :=
  (List.range w.nSp).flatMap fun k => (s.ids S k).flatMap fun i =>
    (part (w.sp k)).grps.map fun g => (g.typeId, g.atoms.map fun a => (w.atomId k i a.toNat : ℤ))

/-! ### DdMdConfigIo -/

/-- One atom, DdMdConfigIo.cpp:169-178. -/
def wrDdAtom (w : Sim) (hasMol : Bool) (k i j a : ℕ) (x : Atom) : List Tok :=
  [.int (w.atomId k i a), .int x.typ] ++ (if hasMol then [.int k, .int j, .int a] else []) ++
    wrVec x.pos ++ wrVec x.vel

/-- One of the sections BONDS, ANGLES and DIHEDRALS, DdMdConfigIo.cpp:187-260. -/
def wrDdGroups (w : Sim) (S : ℕ) (s : St B) (title count : String)
    (part : Species.Sp → Species.Part) : List Tok :=
  let gs := groupsOf w S s part
  [.lab title, .lab count, .int gs.length] ++
    gs.zipIdx.flatMap fun (g, n) => [.int n, .int g.1] ++ g.2.map Tok.int

/-- `DdMdConfigIo::write`, DdMdConfigIo.cpp:120-264. -/
def writeDdMd (io : BoxIO B) (w : Sim) (hasMol : Bool) (S : ℕ) (s : St B) : List Tok :=
  [.lab "BOUNDARY"] ++ (io.print s.box).map Tok.bd ++
    [.lab "ATOMS", .lab "nAtom", .int (nAtomOf w S s)] ++ wrSystem w S s (wrDdAtom w hasMol) ++
    wrDdGroups w S s "BONDS" "nBond" (·.bonds) ++
    (if w.cfg.angle then wrDdGroups w S s "ANGLES" "nAngle" (·.angles) else []) ++
    (if w.cfg.dihedral then wrDdGroups w S s "DIHEDRALS" "nDihedral" (·.dihedrals) else [])

/-- Body of the loop over atoms, DdMdConfigIo.cpp:93-113; the type is read and
not used. -/
def rdDdAtom (w : Sim) (hasMol : Bool) (k : ℕ) (_ : B) (i j a : ℕ) (x : Atom) (ws : List Tok) :
    Out (Atom × List Tok) := do
  let (z, ws) ← rdInt ws
  let (_, ws) ← rdInt ws
  check (z = w.atomId k i a)
  let ws ← if hasMol then do
      let (s, ws) ← rdInt ws
      let (m, ws) ← rdInt ws
      let (c, ws) ← rdInt ws
      check (s = k)
      check (m = j)
      check (c = a)
      ok ws
    else ok ws
  let (r, ws) ← rdVec ws
  let (v, ws) ← rdVec ws
  ok ({ x with pos := r, vel := v }, ws)

/-- `DdMdConfigIo::read`, DdMdConfigIo.cpp:44-118. -/
def readDdMd (io : BoxIO B) (w : Sim) (hasMol : Bool) (S : ℕ) (s : St B) (ws : List Tok) :
    Out (St B × List Tok) := do
  let ws ← rdLab "BOUNDARY" ws
  let (b, ws) ← rdBox io s.box ws
  let ws ← rdLab "ATOMS" ws
  let (n, ws) ← rdCount "nAtom" ws
  check (n = atomCap w)
  rdSystem w false S w.cap (rdDdAtom w hasMol) ({ s with box := b }, ws)

/-! ### LammpsConfigIo -/

/-- One atom, LammpsConfigIo.cpp:257-263. -/
def wrLmAtom (w : Sim) (k i _j a : ℕ) (x : Atom) : List Tok :=
  [.int (w.atomId k i a + 1), .int (i + 1), .int (x.typ + 1)] ++ wrVec x.pos ++
    [.int 0, .int 0, .int 0]

/-- One of the sections Bonds, Angles and Dihedrals, LammpsConfigIo.cpp:269-335. -/
def wrLmGroups (w : Sim) (S : ℕ) (s : St B) (title : String)
    (part : Species.Sp → Species.Part) : List Tok :=
  let gs := groupsOf w S s part
  if 0 < gs.length then
    .lab title :: gs.zipIdx.flatMap fun (g, n) =>
      [.int (n + 1), .int (g.1 + 1)] ++ g.2.map fun a => Tok.int (a + 1)
  else []

/-- Numbers and bounds at the beginning of a file, LammpsConfigIo.cpp:171-249;
the title line is one token.  The bounds are `lo` and `hi`; `write` uses 0 and
the lengths of the boundary. -/
def wrLmHead (w : Sim) (nAtom nBond nAngle nDihedral : ℕ) (lo hi : Vec) : List Tok :=
  [.lab "LAMMPS data file", .int nAtom, .lab "atoms", .int nBond, .lab "bonds", .int nAngle,
    .lab "angles", .int nDihedral, .lab "dihedrals", .int 0, .lab "impropers",
    .int w.nAtomType, .lab "atom", .lab "types", .int w.nBondType, .lab "bond", .lab "types",
    .int w.nAngleType, .lab "angle", .lab "types", .int w.nDihedralType, .lab "dihedral",
    .lab "types", .int 0, .lab "improper", .lab "types",
    .bd (.num (lo 0)), .bd (.num (hi 0)), .lab "xlo", .lab "xhi",
    .bd (.num (lo 1)), .bd (.num (hi 1)), .lab "ylo", .lab "yhi",
    .bd (.num (lo 2)), .bd (.num (hi 2)), .lab "zlo", .lab "zhi", .lab "Masses"] ++
    ((List.range w.nAtomType).flatMap fun t => [.int (t + 1 : ℕ), .bd (.num 1)]) ++ [.lab "Atoms"]

/-- Text of system `S` with bounds `lo` and `lo` plus the lengths, all positions
displaced by `lo`: `LammpsConfigIo::write`, LammpsConfigIo.cpp:168-339, for
`lo = 0`. -/
noncomputable def writeLammpsAt (io : BoxIO B) (w : Sim) (lo : Vec) (S : ℕ) (s : St B) :
    List Tok :=
  wrLmHead w (nAtomOf w S s) (groupsOf w S s (·.bonds)).length
      (if w.cfg.angle then (groupsOf w S s (·.angles)).length else 0)
      (if w.cfg.dihedral then (groupsOf w S s (·.dihedrals)).length else 0)
      lo (fun c => lo c + io.lengths s.box c) ++
    wrSystem w S s (fun k i j a x => wrLmAtom w k i j a { x with pos := x.pos + lo }) ++
    wrLmGroups w S s "Bonds" (·.bonds) ++
    (if w.cfg.angle then wrLmGroups w S s "Angles" (·.angles) else []) ++
    (if w.cfg.dihedral then wrLmGroups w S s "Dihedrals" (·.dihedrals) else [])

/-- `LammpsConfigIo::write`. -/
noncomputable def writeLammps (io : BoxIO B) (w : Sim) (S : ℕ) (s : St B) : List Tok :=
  writeLammpsAt io w 0 S s

/-- Body of the loop over atoms, LammpsConfigIo.cpp:149-162. -/
def rdLmAtom (w : Sim) (lo : Vec) (k : ℕ) (_ : B) (i _j a : ℕ) (x : Atom) (ws : List Tok) :
    Out (Atom × List Tok) := do
  let (z, ws) ← rdInt ws
  let (_, ws) ← rdInt ws
  let (_, ws) ← rdInt ws
  check (z = w.atomId k i a + 1)
  let (r, ws) ← rdVec ws
  let (_, ws) ← rdInt ws
  let (_, ws) ← rdInt ws
  let (_, ws) ← rdInt ws
  ok ({ x with pos := r + lo }, ws)

/-- `in >> n >> Label(l)...`. -/
def rdNumLabs (ls : List String) (ws : List Tok) : Out (ℤ × List Tok) := do
  let (n, ws) ← rdInt ws
  let ws ← loop (fun ws l => rdLab l ws) ls ws
  ok (n, ws)

/-- `in >> min[i] >> max[i] >> Label(l0) >> Label(l1)`. -/
def rdBounds (l0 l1 : String) (ws : List Tok) : Out ((ℝ × ℝ) × List Tok) := do
  let (x, ws) ← rdNum ws
  let (y, ws) ← rdNum ws
  let ws ← rdLab l0 ws
  let ws ← rdLab l1 ws
  ok ((x, y), ws)

/-- `bondCapacity`, LammpsConfigIo.cpp:61-63. -/
def bondCap (w : Sim) : ℕ := ((List.range w.nSp).map fun k => w.cap k * w.nBond k).sum

/-- Numbers at the beginning of the file, LammpsConfigIo.cpp:66-108; the number
of atom types is returned. -/
def rdLmCounts (w : Sim) (ws : List Tok) : Out (ℤ × List Tok) := do
  let ws ← (match ws with
    | [] => throw
    | _ :: ws => ok ws)
  let (nAtom, ws) ← rdNumLabs ["atoms"] ws
  let (nBond, ws) ← rdNumLabs ["bonds"] ws
  let (_, ws) ← rdNumLabs ["angles"] ws
  let (_, ws) ← rdNumLabs ["dihedrals"] ws
  let (_, ws) ← rdNumLabs ["impropers"] ws
  check (nAtom = atomCap w)
  check (nBond = bondCap w)
  let (nType, ws) ← rdNumLabs ["atom", "types"] ws
  let (_, ws) ← rdNumLabs ["bond", "types"] ws
  let (_, ws) ← rdNumLabs ["angle", "types"] ws
  let (_, ws) ← rdNumLabs ["dihedral", "types"] ws
  let (_, ws) ← rdNumLabs ["improper", "types"] ws
  check (nType ≤ w.nAtomType)
  ok (nType, ws)

/-- Masses, LammpsConfigIo.cpp:119-125. -/
def rdMasses (n : ℕ) (ws : List Tok) : Out (List Tok) :=
  loop (fun ws _ => do
    let (_, ws) ← rdInt ws
    let (_, ws) ← rdNum ws
    ok ws) (List.range n) ws

/-- `LammpsConfigIo::read`, LammpsConfigIo.cpp:45-166. -/
noncomputable def readLammps (io : BoxIO B) (w : Sim) (S : ℕ) (s : St B) (ws : List Tok) :
    Out (St B × List Tok) := do
  let (nType, ws) ← rdLmCounts w ws
  let (x, ws) ← rdBounds "xlo" "xhi" ws
  let (y, ws) ← rdBounds "ylo" "yhi" ws
  let (z, ws) ← rdBounds "zlo" "zhi" ws
  let lo : Vec := ![x.1, y.1, z.1]
  let hi : Vec := ![x.2, y.2, z.2]
  let b := io.setOrtho s.box (hi - lo)
  let ws ← rdLab "Masses" ws
  let ws ← rdMasses nType.toNat ws
  let ws ← rdLab "Atoms" ws
  rdSystem w true S w.cap (rdLmAtom w lo) ({ s with box := b }, ws)

/-! ### SmpConfigIo -/

/-- Words of the structure of a species as tokens. -/
def Tok.ofWord : Species.Word → Tok
  | .lab s => .lab s
  | .num z => .int z

def Tok.word? : Tok → Option Species.Word
  | .lab s => some (.lab s)
  | .int z => some (.num z)
  | .bd _ => none

/-- `speciesPtr->matchStructure(in)`: it reads words and integers only. -/
def rdMatch (w : Sim) (k : ℕ) (ws : List Tok) : Out (Bool × List Tok) := do
  let us := ((ws.map Tok.word?).takeWhile Option.isSome).filterMap id
  let (m, r) ← Species.matchStructure w.cfg (w.sp k) us
  ok (m, ws.drop (us.length - r.length))

/-- Atoms written before those of species `k`. -/
def atomsBefore (w : Sim) (n : ℕ → ℕ) (k : ℕ) : ℕ :=
  ((List.range k).map fun k' => n k' * w.nAtom k').sum

/-- One atom, SmpConfigIo.cpp:328-333; `c` atoms precede it (`atomId`). -/
def wrSmpAtom (c k j a : ℕ) (x : Atom) : List Tok :=
  [.int c, .int x.typ, .int k, .int j, .int a] ++ wrVec x.pos ++ wrVec x.vel

/-- The SPECIES block, SmpConfigIo.cpp:288-306. -/
def wrSmpSpecies (w : Sim) (S : ℕ) (s : St B) : List Tok :=
  [.lab "SPECIES", .lab "nSpecies", .int w.nSp] ++
    (List.range w.nSp).flatMap fun k =>
      [.lab "species", .int k, .lab "nMolecule", .int (s.ids S k).length] ++
        (Species.writeStructure w.cfg (w.sp k)).map Tok.ofWord

/-- `SmpConfigIo::write`, SmpConfigIo.cpp:284-382. -/
def writeSmp (io : BoxIO B) (w : Sim) (S : ℕ) (s : St B) : Out (List Tok) := do
  let ls ← wrLinks w S s
  ok (wrSmpSpecies w S s ++ [.lab "BOUNDARY"] ++ (io.print s.box).map Tok.bd ++
    [.lab "ATOMS", .lab "ordered", .lab "format", .lab "itmpv", .lab "nAtom",
      .int (nAtomOf w S s)] ++
    wrSystem w S s (fun k _ j a x =>
      wrSmpAtom (atomsBefore w (fun k => (s.ids S k).length) k + j * w.nAtom k + a) k j a x) ++
    ls)

/-- Body of the loop over species in the SPECIES block, SmpConfigIo.cpp:82-98;
the values are the numbers of molecules and the number of atoms so far. -/
def rdSmpSpecies (w : Sim) (x : (ℕ → ℤ) × ℤ × List Tok) (k : ℕ) :
    Out ((ℕ → ℤ) × ℤ × List Tok) := do
  let (kIn, ws) ← rdCount "species" x.2.2
  check (kIn = k)
  let (n, ws) ← rdCount "nMolecule" ws
  check (0 ≤ n)
  check (n ≤ w.cap k)
  let (m, ws) ← rdMatch w k ws
  check (m = true)
  ok (Function.update x.1 k n, x.2.1 + n * w.nAtom k, ws)

/-- The SPECIES block, SmpConfigIo.cpp:61-117.  Without this block the element
`firstAtomIds[iSpecies+1]` is set for each species, beyond the end of the array
for the last one. -/
def rdSmpBlock (w : Sim) (ws : List Tok) : Out ((ℕ → ℤ) × ℤ × List Tok) :=
  match optLab "SPECIES" ws with
  | (true, ws) => do
    let (n, ws) ← rdCount "nSpecies" ws
    check (0 < n)
    check (n = w.nSp)
    loop (rdSmpSpecies w) (List.range w.nSp) (fun _ => 0, 0, ws)
  | (false, ws) =>
    loop (fun x k => do
      require (k + 1 < w.nSp)
      ok (Function.update x.1 k (w.cap k : ℤ), x.2.1 + w.cap k * w.nAtom k, x.2.2))
      (List.range w.nSp) (fun _ => 0, 0, ws)

/-- Flags of a format string. -/
structure Fmt where
  i : Bool
  t : Bool
  m : Bool
  p : Bool
  v : Bool
  s : Bool

/-- `FlagSet::setActualOrdered` for the flags "itmpvs". -/
def Fmt.parse (f : String) : Out Fmt := do
  check (f.toList.Sublist ['i', 't', 'm', 'p', 'v', 's'])
  ok ⟨f.toList.contains 'i', f.toList.contains 't', f.toList.contains 'm',
    f.toList.contains 'p', f.toList.contains 'v', f.toList.contains 's'⟩

/-- `in >> z; UTIL_CHECK(z == e)` if `c`. -/
def rdExpect (c : Bool) (e : ℤ) (ws : List Tok) : Out (List Tok) :=
  if c then do
    let (z, ws) ← rdInt ws
    check (z = e)
    ok ws
  else ok ws

/-- Body of the loop over atoms, SmpConfigIo.cpp:175-218; the stream carries
`count`. -/
def rdSmpAtom (io : BoxIO B) (w : Sim) (fl : Fmt) (k : ℕ) (b : B) (_i j a : ℕ) (x : Atom)
    (z : ℕ × List Tok) : Out (Atom × (ℕ × List Tok)) := do
  let ws ← rdExpect fl.i z.1 z.2
  let ws ← rdExpect fl.t (w.atomType k a) ws
  let ws ← rdExpect fl.m k ws
  let ws ← rdExpect fl.m j ws
  let ws ← rdExpect fl.m a ws
  let (r, ws) ← rdVec ws
  let (v, ws) ← if fl.v then rdVec ws else ok (x.vel, ws)
  let ws ← if fl.s then do
      let (_, ws) ← rdInt ws
      let (_, ws) ← rdInt ws
      let (_, ws) ← rdInt ws
      ok ws
    else ok ws
  ok (⟨io.shift b r, v, w.atomType k a⟩, (z.1 + 1, ws))

/-- The LINKS section, SmpConfigIo.cpp:223-275, and the final check that no word
is left in the buffer of `Label`, line 278. -/
def rdSmpLinks (w : Sim) (S : ℕ) (s : St B) (ws : List Tok) : Out (St B × List Tok) :=
  if w.useLinks then
    match optLab "LINKS" ws with
    | (false, []) => ok (s, [])
    | (false, _) => throw
    | (true, ws) => do
      let (n, ws) ← rdCount "nLink" ws
      check (0 < n)
      loop (rdLink w S) (List.range n.toNat) (s, ws)
  else ok (s, ws)

/-- `SmpConfigIo::read`, SmpConfigIo.cpp:45-279. -/
def readSmp (io : BoxIO B) (w : Sim) (S : ℕ) (s : St B) (ws : List Tok) :
    Out (St B × List Tok) := do
  check (0 < w.nSp)
  let (n, tot, ws) ← rdSmpBlock w ws
  let ws ← rdLab "BOUNDARY" ws
  let (b, ws) ← rdBox io s.box ws
  let ws ← rdLab "ATOMS" ws
  let (ordered, ws) := optLab "ordered" ws
  let ws ← rdLab "format" ws
  let (f, ws) ← rdStr ws
  check (f.length > 0)
  let (c, ws) ← rdCount "nAtom" ws
  check (c = tot)
  let fl ← Fmt.parse f
  check (fl.p = true)
  check (ordered = true)
  let (s, z) ← rdSystem w true S (fun k => (n k).toNat) (rdSmpAtom io w fl)
    ({ s with box := b }, (0, ws))
  rdSmpLinks w S s z.2

end Verif.McConfig
