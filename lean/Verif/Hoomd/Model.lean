/-
HOOMD configuration files of the postprocessor: `TypeMap`, `HoomdConfigReader`, `HoomdConfigWriter` of
mdPp/config.

Simplified: a file is a list of words, numbers and tags; attributes of tags are numbers.  An extraction that
fails leaves the stream failed, so that the end tag of the node is not found: it is given the outcome
`throw`.  One coordinate of each position is kept, with the length of an orthorhombic box.
-/
import Verif.Cpp.Outcome
import Mathlib.Algebra.Order.Archimedean.Real.Basic

set_option autoImplicit false

namespace Verif.Hoomd

open Verif.Cpp
open Verif.Cpp.Out

/-! ### Names of types -/

/-- `ids_` and `names_`, TypeMap.h:73-77. -/
structure TypeMap where
  ids : String → Option ℤ
  names : ℤ → Option String

/-- The constructor, TypeMap.cpp:19-20. -/
def TypeMap.empty : TypeMap := ⟨fun _ => none, fun _ => none⟩

/-- `TypeMap::insert`, TypeMap.cpp:28-40. -/
def TypeMap.insert (m : TypeMap) (id : ℤ) (name : String) : Out TypeMap := do
  check ((m.ids name).isNone = true)
  check ((m.names id).isNone = true)
  ok ⟨fun n => if n = name then some id else m.ids n, fun i => if i = id then some name else m.names i⟩

/-- `TypeMap::read`, TypeMap.cpp:42-53. -/
def TypeMap.read (m : TypeMap) (l : List (ℤ × String)) : Out TypeMap :=
  loop (fun m x => m.insert x.1 x.2) l m

/-- `TypeMap::id`, TypeMap.h:81-89. -/
def TypeMap.id (m : TypeMap) (name : String) : Out ℤ :=
  match m.ids name with
  | none => Out.throw
  | some i => ok i

/-- `TypeMap::name`, TypeMap.h:91-99. -/
def TypeMap.name (m : TypeMap) (id : ℤ) : Out String :=
  match m.names id with
  | none => Out.throw
  | some n => ok n

/-- The maps of a reader or writer. -/
structure Maps where
  atom : TypeMap
  bond : TypeMap
  angle : TypeMap
  dihedral : TypeMap

/-- `readAuxiliaryFile`, HoomdConfigReader.cpp:39-67, HoomdConfigWriter.cpp:38-65, for the types of atoms,
bonds and angles in the file. -/
def readAuxiliary (atoms bonds angles : List (ℤ × String)) : Out Maps := do
  let a ← TypeMap.empty.read atoms
  let b ← TypeMap.empty.read bonds
  let c ← TypeMap.empty.read angles
  ok ⟨a, b, c, TypeMap.empty⟩

/-! ### Groups -/

/-- What is in a file. -/
inductive Tok where
  | word (s : String)
  | int (n : ℤ)
  | start (label : String) (num : ℤ)
  | stop (label : String)

/-- A group. -/
structure Group where
  id : ℤ
  typeId : ℤ
  atomIds : List ℤ

/-- `writeGroups`, HoomdConfigWriter.cpp:70-91. -/
def writeGroups (label : String) (map : TypeMap) (l : List Group) : Out (List Tok) := do
  let f ← loop (fun f g => do
    let name ← map.name g.typeId
    ok (f ++ Tok.word name :: g.atomIds.map Tok.int)) l [Tok.start label l.length]
  ok (f ++ [Tok.stop label])

/-- `file >> typeName`. -/
def getName (f : List Tok) : Out (String × List Tok) :=
  match f with
  | Tok.word s :: f => ok (s, f)
  | Tok.int n :: f => ok (toString n, f)
  | _ => Out.throw

/-- `file >> groupPtr->atomIds[j]`. -/
def getInt (f : List Tok) : Out (ℤ × List Tok) :=
  match f with
  | Tok.int n :: f => ok (n, f)
  | _ => Out.throw

/-- One group in `readGroups`, HoomdConfigReader.cpp:485-492; the loop in line 490 ends at 2 for any `N`. -/
def readGroup (map : TypeMap) (x : List Group × List Tok) (i : ℕ) : Out (List Group × List Tok) := do
  let a ← getName x.2
  let t ← map.id a.1
  let b ← getInt a.2
  let c ← getInt b.2
  ok (x.1 ++ [⟨i, t, [b.1, c.1]⟩], c.2)

/-- `endTag`, HoomdConfigReader.cpp:301-307. -/
def endTag (label : String) (f : List Tok) : Out (List Tok) :=
  match f with
  | Tok.stop l :: f => do
    check (l = label)
    ok f
  | _ => Out.throw

/-- A node of groups: `start.matchLabel`, HoomdConfigReader.cpp:154-156, and `readGroups`, lines 467-496, for
a storage without groups. -/
def readGroups (map : TypeMap) (f : List Tok) : Out (List Group × List Tok) :=
  match f with
  | Tok.start label num :: f => do
    let x ← loop (readGroup map) (List.range num.toNat) ([], f)
    let f ← endTag label x.2
    ok (x.1, f)
  | _ => Out.throw

/-! ### Atoms -/

/-- An atom in the storage. -/
structure Atom where
  id : ℤ
  typeId : ℤ
  pos : ℝ

/-- `shift` of an orthorhombic boundary, OrthorhombicBoundary.h:430-442. -/
noncomputable def shift (L x : ℝ) : ℝ :=
  open Classical in
  if x ≥ L then x - L else if x < 0 then x + L else x

/-- The coordinate written, HoomdConfigWriter.cpp:135-145. -/
noncomputable def written (L x : ℝ) : ℝ :=
  open Classical in
  let r := shift L x / L
  L * (if r ≥ 1 / 2 then r - 1 else r)

/-- The nodes of positions and types, HoomdConfigWriter.cpp:128-167: atoms in the order of the storage. -/
noncomputable def writeAtoms (L : ℝ) (map : TypeMap) (l : List Atom) : Out (List ℝ × List String) := do
  let names ← loop (fun t a => do
    let n ← map.name a.typeId
    ok (t ++ [n])) l []
  ok (l.map fun a => written L a.pos, names)

/-- The nodes of positions and types read into an empty storage, HoomdConfigReader.cpp:312-340 and 375-406:
identifiers are places in the file. -/
noncomputable def readAtoms (L : ℝ) (map : TypeMap) (f : List ℝ × List String) : Out (List Atom) := do
  check (f.1.length = f.2.length)
  let types ← loop (fun t n => do
    let i ← map.id n
    ok (t ++ [i])) f.2 []
  ok ((f.1.zip types).mapIdx fun k x => ⟨k, x.2, shift L x.1⟩)

end Verif.Hoomd
