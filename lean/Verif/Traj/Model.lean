/-
Trajectory files: `DdMdTrajectoryWriter`, `DdMdGroupTrajectoryWriter` and `LammpsDumpWriter` of
ddMd/analyzers/trajectory, `LammpsDumpWriter` of mdPp/analyzers, `DdMdTrajectoryReader` and
`LammpsDumpReader` of mdPp/trajectory and mcMd/trajectory.

Simplified: a binary archive is a list of typed values, and reading a value of another type is undefined
behaviour.  A LAMMPS dump is a list of records: what is checked or skipped of its text is left out.  The
box is orthorhombic.  The order in which the collector delivers atoms is that of a list (C20).
-/
import Verif.Cpp.Outcome
import Mathlib.Algebra.Order.Archimedean.Real.Basic
import Mathlib.Data.Fin.VecNotation
import Mathlib.Algebra.Order.Floor.Ring

set_option autoImplicit false

namespace Verif.Traj

open Verif.Cpp
open Verif.Cpp.Out

abbrev Vec := Fin 3 → ℝ

/-- `UINT_MAX` for 32 bits. -/
def uintMax : ℕ := 2 ^ 32 - 1

/-! ### Binary trajectories -/

/-- Conversion of a generalized coordinate, DdMdTrajectoryWriter.cpp:73-76, DdMdGroupTrajectoryWriter.cpp:
114-117; converting a number out of range to `unsigned int` is undefined behaviour. -/
noncomputable def encode (r : ℝ) : Out ℕ :=
  open Classical in
  let r := if r ≥ 1 then r - 1 else r
  let r := if r < 0 then r + 1 else r
  let k := ⌊(uintMax : ℝ) * r + r + 1 / 2⌋
  do
    require (0 ≤ k ∧ k ≤ uintMax)
    ok k.toNat

/-- `r[j] = ir*h`, mdPp/trajectory/DdMdTrajectoryReader.cpp:67 and 78, mcMd/trajectory/
DdMdTrajectoryReader.cpp:94 and 101. -/
noncomputable def decode (k : ℕ) : ℝ := k * (1 / ((uintMax : ℝ) + 1))

/-- Values in a binary archive. -/
inductive Val where
  | long (n : ℤ)
  | box (l : Vec)
  | int (n : ℤ)
  | uint (n : ℕ)

/-- What a writer uses of an atom: identifier, Cartesian position, bits of the groups it is in. -/
structure Item where
  id : ℤ
  pos : Vec
  groups : ℕ

/-- One atom in a frame, DdMdTrajectoryWriter.cpp:65-78, with `transformCartToGen`. -/
noncomputable def writeAtom (box : Vec) (a : Item) : Out (List Val) := do
  let x ← encode (a.pos 0 / box 0)
  let y ← encode (a.pos 1 / box 1)
  let z ← encode (a.pos 2 / box 2)
  ok [Val.int a.id, Val.uint x, Val.uint y, Val.uint z]

/-- A snapshot: number of the step, lengths of the box, atoms. -/
structure Snap where
  step : ℤ
  box : Vec
  atoms : List Item

/-- `DdMdTrajectoryWriter::writeFrame`, DdMdTrajectoryWriter.cpp:48-88, on the master. -/
noncomputable def writeFrame (s : Snap) : Out (List Val) :=
  loop (fun f a => do
    let v ← writeAtom s.box a
    ok (f ++ v)) s.atoms [Val.long s.step, Val.box s.box]

/-- `DdMdTrajectoryWriter::writeHeader`, DdMdTrajectoryWriter.cpp:35-46. -/
def writeHeader (s : Snap) : List Val := [Val.int s.atoms.length]

/-- Atoms of which `bit.isSet(atomPtr->groups())`. -/
def inGroup (groupId : ℕ) (l : List Item) : List Item := l.filter fun a => a.groups.testBit groupId

/-- `DdMdGroupTrajectoryWriter::writeHeader`, DdMdGroupTrajectoryWriter.cpp:64-84. -/
def writeGroupHeader (groupId : ℕ) (s : Snap) : List Val :=
  [Val.int (s.atoms.foldl (fun n a => if a.groups.testBit groupId then n + 1 else n) 0)]

/-- `DdMdGroupTrajectoryWriter::writeFrame`, DdMdGroupTrajectoryWriter.cpp:86-128. -/
noncomputable def writeGroupFrame (groupId : ℕ) (s : Snap) : Out (List Val) :=
  loop (fun f a =>
    if a.groups.testBit groupId then do
      let v ← writeAtom s.box a
      ok (f ++ v)
    else ok f) s.atoms [Val.long s.step, Val.box s.box]

/-- State of the reader: capacity of the storage, which identifiers it has, box and positions. -/
structure Store where
  cap : ℤ
  has : ℤ → Bool
  box : Vec
  pos : ℤ → Vec

/-- Assignment of a position. -/
def Store.put (s : Store) (id : ℤ) (r : Vec) : Store :=
  { s with pos := fun i => if i = id then r else s.pos i }

/-- One atom, mdPp/trajectory/DdMdTrajectoryReader.cpp:70-81, with `transformGenToCart`. -/
noncomputable def readAtom (x : Store × List Val) : Out (Store × List Val) :=
  match x.2 with
  | Val.int id :: Val.uint i :: Val.uint j :: Val.uint k :: rest => do
    require (0 ≤ id ∧ id < x.1.cap)
    check (x.1.has id)
    ok (x.1.put id (fun d => x.1.box d * decode (![i, j, k] d)), rest)
  | _ => ub

/-- `DdMdTrajectoryReader::readFrame` of mdPp, mdPp/trajectory/DdMdTrajectoryReader.cpp:46-84; `none` if it
returns false. -/
noncomputable def readFrame (nAtom : ℤ) (s : Store) (f : List Val) : Out (Option (Store × List Val)) :=
  match f with
  | [] => ok none
  | Val.long _ :: Val.box l :: rest => do
    let x ← loop (fun x _ => readAtom x) (List.range nAtom.toNat) ({ s with box := l }, rest)
    ok (some x)
  | _ => ub

/-- `readHeader`, mdPp/trajectory/DdMdTrajectoryReader.cpp:36-41. -/
def readHeader (f : List Val) : Out (ℤ × List Val) :=
  match f with
  | Val.int n :: rest => ok (n, rest)
  | _ => ub

/-- Calls of `readFrame` until it returns false, or `n` times: the stores after each frame, and what is left
of the file. -/
noncomputable def readFrames (nAtom : ℤ) : ℕ → Store → List Val → Out (List Store × List Val)
  | 0, _, f => ok ([], f)
  | n + 1, s, f => do
    let x ← readFrame nAtom s f
    match x with
    | none => ok ([], f)
    | some (s', f') => do
      let y ← readFrames nAtom n s' f'
      ok (s' :: y.1, y.2)

/-! ### LAMMPS dumps -/

/-- A line of atoms. -/
structure Row where
  id : ℤ
  typeId : ℤ
  molId : ℤ
  pos : Vec

/-- A frame of a dump: limits of the box and lines of atoms. -/
structure Dump where
  step : ℤ
  nAtom : ℕ
  lo : Vec
  hi : Vec
  rows : List Row

/-- An atom of ddMd, with its position as it is stored. -/
structure DdAtom where
  id : ℤ
  typeId : ℤ
  pos : Vec

/-- `LammpsDumpWriter::writeFrame`, ddMd/analyzers/trajectory/LammpsDumpWriter.cpp:37-98; lines 72-76 compute
the Cartesian position `r`, line 81 writes the position that is stored.  With stored Cartesian positions
it is also mdPp/analyzers/LammpsDumpWriter.cpp:45-86. -/
def writeDump (_isCartesian : Bool) (step : ℤ) (box : Vec) (l : List DdAtom) : Dump where
  step := step
  nAtom := l.length
  lo := fun _ => 0
  hi := box
  rows := l.map fun a => ⟨a.id + 1, a.typeId + 1, 1, a.pos⟩

/-- One line, mdPp/trajectory/LammpsDumpReader.cpp:86-104. -/
def readRow (s : Store) (r : Row) : Out Store := do
  require (0 ≤ r.id - 1 ∧ r.id - 1 < s.cap)
  check (s.has (r.id - 1))
  ok (s.put (r.id - 1) r.pos)

/-- `LammpsDumpReader::readFrame` of mdPp, mdPp/trajectory/LammpsDumpReader.cpp:35-107: `lengths` is computed
and not used. -/
def readDump (s : Store) (d : Dump) : Out Store := loop readRow d.rows s

/-- One line, mcMd/trajectory/LammpsDumpReader.cpp:119-136, with the function `shift` of the boundary. -/
def readRowMc (shift : Vec → Vec → Vec) (s : Store) (r : Row) : Out Store := do
  require (0 ≤ r.id - 1 ∧ r.id - 1 < s.cap)
  ok (s.put (r.id - 1) (shift s.box r.pos))

/-- `LammpsDumpReader::readFrame` of mcMd, mcMd/trajectory/LammpsDumpReader.cpp:60-157. -/
def readDumpMc (shift : Vec → Vec → Vec) (nAtomTotal : ℕ) (s : Store) (d : Dump) : Out Store := do
  check (d.nAtom = nAtomTotal)
  loop (readRowMc shift) d.rows { s with box := fun j => d.hi j - d.lo j }

end Verif.Traj
