/-
DdMd configuration files of the postprocessor: `DdMdConfigReader`, `DdMdConfigWriter` of mdPp/config.

Simplified: a file is a list of labels, integers and vectors; the boundary is one vector.  An integer read
past the end of the file is what was in memory, given by `junk`; a label where a number is read, or a vector
where there is none, is given the outcome `ub`.  A label that is optional is taken as absent at the end of
the file, also after a read that failed there.  The storages read into are empty.  Bonds, angles and
dihedrals are all compiled in.
-/
import Verif.Cpp.Outcome
import Mathlib.Algebra.Order.Archimedean.Real.Basic

set_option autoImplicit false

namespace Verif.PpConf

open Verif.Cpp
open Verif.Cpp.Out

/-- A vector. -/
abbrev Vec := ℝ × ℝ × ℝ

/-- What is in a file. -/
inductive Tok where
  | lab (s : String)
  | int (n : ℤ)
  | vec (v : Vec)

/-- `Atom`, mdPp/chemistry/Atom.h. -/
structure Atom where
  id : ℤ
  typeId : ℤ
  speciesId : ℤ
  moleculeId : ℤ
  atomId : ℤ
  pos : Vec
  vel : Vec

/-- `Group`, mdPp/chemistry/Group.h:20-39. -/
structure Group where
  id : ℤ
  typeId : ℤ
  atomIds : List ℤ

/-- `GroupStorage`: capacity and groups. -/
structure Groups where
  cap : ℕ
  list : List Group

/-- `Configuration`. -/
structure Conf where
  boundary : Vec
  hasContexts : Bool
  cap : ℕ
  atoms : List Atom
  bonds : Groups
  angles : Groups
  dihedrals : Groups

/-! ### Writing -/

/-- `<<` of a group, Group.h:71-83. -/
def putGroup (g : Group) : List Tok := Tok.int g.id :: Tok.int g.typeId :: g.atomIds.map Tok.int

/-- `DdMdConfigWriter::writeGroups`, DdMdConfigWriter.cpp:36-50; the number in line 41 is that of bonds. -/
def writeGroups (c : Conf) (label nLabel : String) (g : Groups) : List Tok :=
  Tok.lab label :: Tok.lab nLabel :: Tok.int c.bonds.list.length :: g.list.flatMap putGroup

/-- One atom, DdMdConfigWriter.cpp:81-90. -/
def putAtom (ctx : Bool) (a : Atom) : List Tok :=
  [Tok.int a.id, Tok.int a.typeId] ++
    (if ctx then [Tok.int a.speciesId, Tok.int a.moleculeId, Tok.int a.atomId] else []) ++
    [Tok.vec a.pos, Tok.vec a.vel]

/-- `DdMdConfigWriter::writeConfig`, DdMdConfigWriter.cpp:55-112; `ctx` is `writeAtomContexts_`. -/
def writeConfig (ctx : Bool) (c : Conf) : List Tok :=
  [Tok.lab "BOUNDARY", Tok.vec c.boundary, Tok.lab "ATOMS", Tok.lab "nAtom", Tok.int c.atoms.length] ++
    (c.atoms.flatMap (putAtom (c.hasContexts && ctx)) ++
    ((if c.bonds.cap ≠ 0 then writeGroups c "BONDS" "nBond" c.bonds else []) ++
    ((if c.angles.cap ≠ 0 then writeGroups c "ANGLES" "nAngle" c.angles else []) ++
    (if c.dihedrals.cap ≠ 0 then writeGroups c "DIHEDRALS" "nDihedral" c.dihedrals else []))))

/-! ### Reading -/

/-- `file >> Label(s)`. -/
def getLabel (s : String) (f : List Tok) : Out (List Tok) :=
  match f with
  | Tok.lab l :: f => do
    check (l = s)
    ok f
  | _ => Out.throw

/-- `file >> n`. -/
def getInt (junk : ℤ) (f : List Tok) : Out (ℤ × List Tok) :=
  match f with
  | Tok.int n :: f => ok (n, f)
  | [] => ok (junk, [])
  | _ => Out.ub

/-- `file >> v`. -/
def getVec (f : List Tok) : Out (Vec × List Tok) :=
  match f with
  | Tok.vec v :: f => ok (v, f)
  | _ => Out.ub

/-- The atoms of a group, Group.h:56-58. -/
def getInts (junk : ℤ) : ℕ → List Tok → Out (List ℤ × List Tok)
  | 0, f => ok ([], f)
  | n + 1, f => do
    let a ← getInt junk f
    let l ← getInts junk n a.2
    ok (a.1 :: l.1, l.2)

/-- `>>` of a group, Group.h:51-60. -/
def getGroup (junk : ℤ) (N : ℕ) (f : List Tok) : Out (Group × List Tok) := do
  let a ← getInt junk f
  let t ← getInt junk a.2
  let l ← getInts junk N t.2
  ok (⟨a.1, t.1, l.1⟩, l.2)

/-- The loop over groups, DdMdConfigReader.cpp:142-145. -/
def getGroups (junk : ℤ) (N : ℕ) (is : List ℕ) (x : List Group × List Tok) : Out (List Group × List Tok) :=
  loop (fun x _ => do
    let g ← getGroup junk N x.2
    ok (x.1 ++ [g.1], g.2)) is x

/-- `OptionalLabel::match`. -/
def optional (s : String) (f : List Tok) : Bool × List Tok :=
  match f with
  | Tok.lab l :: r => if l = s then (true, r) else (false, f)
  | _ => (false, f)

/-- `DdMdConfigReader::readGroups`, DdMdConfigReader.cpp:118-149. -/
def readGroups (junk : ℤ) (N : ℕ) (label nLabel : String) (cap : ℕ) (f : List Tok) :
    Out (Groups × List Tok) :=
  let m := optional label f
  if m.1 then do
    let f ← getLabel nLabel m.2
    let n ← getInt junk f
    check (n.1 > 0)
    let cap' := if cap = 0 then n.1.toNat else cap
    check ((cap' : ℤ) ≥ n.1)
    let x ← getGroups junk N (List.range n.1.toNat) ([], n.2)
    ok (⟨cap', x.1⟩, x.2)
  else ok (⟨cap, []⟩, f)

/-- One atom, DdMdConfigReader.cpp:62-96; what is not read is what was in memory. -/
def getAtom (junk : ℤ) (ctx : Bool) (cap : ℕ) (f : List Tok) : Out (Atom × List Tok) := do
  let i ← getInt junk f
  check (0 ≤ i.1)
  check (i.1 < cap)
  let t ← getInt junk i.2
  let k ← (if ctx then do
      let s ← getInt junk t.2
      check (0 ≤ s.1)
      let m ← getInt junk s.2
      check (0 ≤ m.1)
      let a ← getInt junk m.2
      check (0 ≤ a.1)
      ok ((s.1, m.1, a.1), a.2)
    else ok ((junk, junk, junk), t.2) : Out ((ℤ × ℤ × ℤ) × List Tok))
  let p ← getVec k.2
  let v ← getVec p.2
  ok (⟨i.1, t.1, k.1.1, k.1.2.1, k.1.2.2, p.1, v.1⟩, v.2)

/-- `DdMdConfigReader::readConfig`, DdMdConfigReader.cpp:32-113, for the capacities of the storages. -/
def readConfig (junk : ℤ) (ctx : Bool) (cap bondCap angleCap dihedralCap : ℕ) (f : List Tok) : Out Conf := do
  let f ← getLabel "BOUNDARY" f
  let b ← getVec f
  let f ← getLabel "ATOMS" b.2
  let f ← getLabel "nAtom" f
  let n ← getInt junk f
  check (n.1 > 0)
  let cap' := if cap = 0 then n.1.toNat else cap
  check (n.1 ≤ (cap' : ℤ))
  let x ← loop (fun (x : List Atom × List Tok) _ => do
    let a ← getAtom junk ctx cap' x.2
    ok (x.1 ++ [a.1], a.2)) (List.range n.1.toNat) ([], n.2)
  let bonds ← readGroups junk 2 "BONDS" "nBond" bondCap x.2
  let angles ← readGroups junk 3 "ANGLES" "nAngle" angleCap bonds.2
  let dihedrals ← readGroups junk 4 "DIHEDRALS" "nDihedral" dihedralCap angles.2
  ok ⟨b.1, ctx, cap', x.1, bonds.1, angles.1, dihedrals.1⟩

end Verif.PpConf
