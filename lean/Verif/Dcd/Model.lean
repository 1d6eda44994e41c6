/-
DCD trajectories of mcMd: `DCDTrajectoryReader` of mcMd/trajectory.

Simplified: a file is its two header fields and the list of values after them, each an integer, a `double` or
a `float`; a value read as one of another kind is given the outcome `ub` (its bytes would be taken as they
are).  A read past the end leaves the stream failed, and the variable as it was: for a local variable this is
any value, given by `junk`.  `setOrthorhombic` is assumed to accept the lengths.
-/
import Verif.Cpp.Outcome
import Mathlib.Algebra.Order.Archimedean.Real.Basic

set_option autoImplicit false

namespace Verif.Dcd

open Verif.Cpp
open Verif.Cpp.Out

/-- A value in a file. -/
inductive Val where
  | int (n : ℤ)
  | dbl (x : ℝ)
  | flt (x : ℝ)

/-- `file_`: what is left, and `good()`. -/
structure Stream where
  rest : List Val
  good : Bool

/-- `read_int`, DCDTrajectoryReader.cpp:48-53; `junk` is what was in memory. -/
def readInt (junk : ℤ) (s : Stream) : Out (ℤ × Stream) :=
  if s.good then
    match s.rest with
    | Val.int n :: r => ok (n, ⟨r, true⟩)
    | [] => ok (junk, ⟨[], false⟩)
    | _ => Out.ub
  else ok (junk, s)

/-- `file_.read` of a `double`, DCDTrajectoryReader.cpp:112-117. -/
def readDouble (junk : ℝ) (s : Stream) : Out (ℝ × Stream) :=
  if s.good then
    match s.rest with
    | Val.dbl x :: r => ok (x, ⟨r, true⟩)
    | [] => ok (junk, ⟨[], false⟩)
    | _ => Out.ub
  else ok (junk, s)

/-- `n` values read into a buffer from place `k`, as many as there are. -/
def takeFloats : ℕ → ℕ → (ℕ → ℝ) → List Val → Out ((ℕ → ℝ) × Stream)
  | 0, _, b, r => ok (b, ⟨r, true⟩)
  | _ + 1, _, b, [] => ok (b, ⟨[], false⟩)
  | n + 1, k, b, Val.flt x :: r => takeFloats n (k + 1) (fun i => if i = k then x else b i) r
  | _ + 1, _, _, _ => Out.ub

/-- `file_.read` of a buffer, DCDTrajectoryReader.cpp:142. -/
def readFloats (n : ℕ) (b : ℕ → ℝ) (s : Stream) : Out ((ℕ → ℝ) × Stream) :=
  if s.good then takeFloats n 0 b s.rest else ok (b, s)

/-- A block of coordinates, DCDTrajectoryReader.cpp:141-150. -/
def readBlock (n : ℕ) (junk junk' : ℤ) (b : ℕ → ℝ) (s : Stream) : Out ((ℕ → ℝ) × Stream) := do
  let size ← readInt junk s
  let x ← readFloats n b size.2
  let e ← readInt junk' x.2
  check (size.1 = 4 * (n : ℤ))
  ok (x.1, e.2)

/-- Species, molecule and atom. -/
abbrev Place := ℕ × ℕ × ℕ

/-- `DCDTrajectoryReader` and the system it reads into. -/
structure Reader where
  nAtoms : ℕ
  nFrames : ℕ
  frameId : ℕ
  xBuf : ℕ → ℝ
  yBuf : ℕ → ℝ
  zBuf : ℕ → ℝ
  box : Fin 3 → ℝ
  pos : Place → Fin 3 → ℝ
  file : Stream

/-- A file: `NFILE`, `NATOMS` and the frames. -/
structure File where
  nFile : ℕ
  nAtoms : ℕ
  data : List Val

/-- `addMolecules`, TrajectoryReader.cpp:39-60: the number of atoms, for the capacity of each species and the
number of atoms in its molecules. -/
def nAtomTotal (sp : List (ℕ × ℕ)) : ℕ := sp.foldl (fun n x => n + x.1 * x.2) 0

/-- `open`, DCDTrajectoryReader.cpp:55-89. -/
def openFile (sp : List (ℕ × ℕ)) (r : Reader) (f : File) : Out Reader := do
  check (f.nAtoms = nAtomTotal sp)
  ok { r with nFrames := f.nFile, frameId := 0, nAtoms := f.nAtoms, file := ⟨f.data, true⟩ }

/-- `shift` of one coordinate, OrthorhombicBoundary.h:430-442. -/
noncomputable def shift (L x : ℝ) : ℝ :=
  open Classical in
  if x ≥ L then x - L else if x < 0 then x + L else x

/-- Positions and `bufferIdx` after one atom, DCDTrajectoryReader.cpp:186-193. -/
noncomputable def loadAtom (r : Reader) (s m : ℕ) (x : (Place → Fin 3 → ℝ) × ℕ) (a : ℕ) :
    Out ((Place → Fin 3 → ℝ) × ℕ) := do
  require (x.2 < r.nAtoms)
  ok (fun q d => if q = (s, m, a) then shift (r.box d) (match d with
      | 0 => r.xBuf x.2
      | 1 => r.yBuf x.2
      | 2 => r.zBuf x.2) else x.1 q d, x.2 + 1)

/-- The loops over species, molecules and atoms, DCDTrajectoryReader.cpp:174-196. -/
noncomputable def load (sp : List (ℕ × ℕ)) (r : Reader) : Out ((Place → Fin 3 → ℝ) × ℕ) :=
  loop (fun x s =>
    loop (fun x m =>
      loop (loadAtom r s m) (List.range (sp.getD s (0, 0)).2) x)
      (List.range (sp.getD s (0, 0)).1) x)
    (List.range sp.length) (r.pos, 0)

/-- What is in memory where a frame reads integers, and a real number. -/
structure Junk where
  int : Fin 8 → ℤ
  dbl : ℝ

/-- The cell, DCDTrajectoryReader.cpp:103-135. -/
def readCell (j : Junk) (s : Stream) : Out ((Fin 3 → ℝ) × Stream) := do
  let h ← readInt (j.int 0) s
  check (h.1 = 48)
  let lx ← readDouble j.dbl h.2
  let a0 ← readDouble j.dbl lx.2
  let ly ← readDouble j.dbl a0.2
  let a1 ← readDouble j.dbl ly.2
  let a2 ← readDouble j.dbl a1.2
  let lz ← readDouble j.dbl a2.2
  let e ← readInt (j.int 1) lz.2
  check (e.1 = 48)
  check (e.2.good = true)
  ok (fun d => match d with
    | 0 => lx.1
    | 1 => ly.1
    | 2 => lz.1, e.2)

/-- `readFrame`, DCDTrajectoryReader.cpp:91-203. -/
noncomputable def readFrame (sp : List (ℕ × ℕ)) (j : Junk) (r : Reader) : Out (Bool × Reader) :=
  if r.frameId ≥ r.nFrames then ok (false, r)
  else do
    let c ← readCell j r.file
    let x ← readBlock r.nAtoms (j.int 2) (j.int 3) r.xBuf c.2
    let y ← readBlock r.nAtoms (j.int 4) (j.int 5) r.yBuf x.2
    let z ← readBlock r.nAtoms (j.int 6) (j.int 7) r.zBuf y.2
    let r1 : Reader := { r with box := c.1, xBuf := x.1, yBuf := y.1, zBuf := z.1, file := z.2 }
    let p ← load sp r1
    ok (true, { r1 with pos := p.1, frameId := r.frameId + 1 })

end Verif.Dcd
