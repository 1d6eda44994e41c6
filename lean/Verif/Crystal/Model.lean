/-
Crystal symmetries: src/simp/crystal/{PointSymmetry,SymmetryGroup,PointGroup} and
the tables of wave vectors of the structure factor analyzers,
src/mcMd/analyzers/system/StructureFactorGrid.cpp (the same text is in
IntraStructureFactorGrid.cpp, StructureFactorPGrid.cpp and
src/ddMd/analyzers/scattering/StructureFactorGrid.cpp).

`int` is `ℤ`.  A `std::vector` is a list.
-/
import Verif.Cpp.Outcome
import Mathlib.LinearAlgebra.Matrix.Notation
import Mathlib.Data.Fintype.Pi

set_option autoImplicit false

namespace Verif.Crystal

open Verif.Cpp
open Verif.Cpp.Out

/-- `PointSymmetry`: a matrix of integers, PointSymmetry.h:23-80. -/
abbrev Sym := Matrix (Fin 3) (Fin 3) ℤ

/-- `IntVector` of the util library. -/
abbrev IVec := Fin 3 → ℤ

/-- `PointSymmetry::makeIdentity`, PointSymmetry.cpp:54-66. -/
def ident : Sym := fun i j => if i = j then 1 else 0

/-- `PointSymmetry::inverse`, PointSymmetry.cpp:71-81. -/
def inverse (A : Sym) : Sym := fun i j => A j i

/-- Product of symmetries, PointSymmetry.cpp:117-130. -/
def mul (A B : Sym) : Sym := fun i j => 0 + A i 0 * B 0 j + A i 1 * B 1 j + A i 2 * B 2 j

/-- Product `V*S` of a vector and a symmetry, PointSymmetry.cpp:150-161. -/
def vecMul (V : IVec) (S : Sym) : IVec := fun i => 0 + V 0 * S 0 i + V 1 * S 1 i + V 2 * S 2 i

/-- Product `S*V`, PointSymmetry.cpp:135-146. -/
def mulVec (S : Sym) (V : IVec) : IVec := fun i => 0 + S i 0 * V 0 + S i 1 * V 1 + S i 2 * V 2

/-! ### The group template -/

/-- `SymmetryGroup::SymmetryGroup()`, SymmetryGroup.h:124-129. -/
def newGroup : List Sym := [ident]

/-- `SymmetryGroup::find`, SymmetryGroup.h:171-181; only whether something is
found. -/
def find (l : List Sym) (x : Sym) : Bool := l.any fun y => x = y

/-- `SymmetryGroup::add`, SymmetryGroup.h:187-200: the new list, and the returned
flag. -/
def add (l : List Sym) (x : Sym) : List Sym × Bool :=
  if find l x then (l, false) else (l ++ [x], true)

/-- Adding inverses, SymmetryGroup.h:212-217.  The loop runs over the elements
present before it, which stay where they are. -/
def addInverses (l : List Sym) : List Sym :=
  l.foldl (fun e a => (add e (inverse a)).1) l

/-- Body of the inner loop, SymmetryGroup.h:227-236; the flag is `complete`. -/
def addProduct (a : Sym) (st : List Sym × Bool) (b : Sym) : List Sym × Bool :=
  let c := mul a b
  let r := add st.1 c
  let q := add r.1 (inverse c)
  (q.1, st.2 && !r.2 && !q.2)

/-- One pass of the `while` loop, SymmetryGroup.h:222-239. -/
def pass (l : List Sym) : List Sym × Bool :=
  l.foldl (fun st a => l.foldl (addProduct a) st) (l, true)

/-- At most `n` passes of the loop, SymmetryGroup.h:221-240; `none` if it has not
ended by then. -/
def passes : ℕ → List Sym → Option (List Sym)
  | 0, _ => none
  | n + 1, l => if (pass l).2 then some (pass l).1 else passes n (pass l).1

/-- `SymmetryGroup::makeCompleteGroup`, SymmetryGroup.h:206-242, with at most `n`
passes. -/
def makeCompleteGroup (n : ℕ) (l : List Sym) : Option (List Sym) := passes n (addInverses l)

/-- Inner loop of `isValid`, SymmetryGroup.h:269-280. -/
def validPair (l : List Sym) (a : Sym) (i : ℕ) (x : Sym × ℕ) : Out Unit := do
  check (i ≠ x.2 → a ≠ x.1)
  check (find l (mul a x.1))

/-- Outer loop of `isValid`, SymmetryGroup.h:263-281. -/
def validElement (l : List Sym) (x : Sym × ℕ) : Out Unit := do
  check (find l (inverse x.1))
  loop (fun _ y => validPair l x.1 x.2 y) l.zipIdx ()

/-- `SymmetryGroup::isValid`, SymmetryGroup.h:249-286. -/
def isValid (l : List Sym) : Out Bool := do
  check (find l ident)
  loop (fun _ x => validElement l x) l.zipIdx ()
  ok true

/-- Elements given by a user one after the other. -/
def addAll (l gens : List Sym) : List Sym := gens.foldl (fun e a => (add e a).1) l

/-- One step of the loop in `makeStar`, PointGroup.h:64-76, with the assertion of
`FSArray::append`. -/
def starStep (cap : ℕ) (star : List IVec) (v : IVec) : Out (List IVec) :=
  if v ∈ star then ok star else do
    require (star.length < cap)
    ok (star ++ [v])

/-- `PointGroup::makeStar`, PointGroup.h:51-78; `cap` is the capacity of the
array. -/
def makeStar (cap : ℕ) (l : List Sym) (root : IVec) : Out (List IVec) := do
  check (l.length ≤ cap)
  loop (starStep cap) (l.map (vecMul root)) []

/-! ### Tables of wave vectors -/

/-- `LatticeSystem`, LatticeSystem.h, those with a branch; others leave the tables
empty. -/
inductive Lattice
  | cubic
  | tetragonal
  | orthorhombic

/-- Generators in the order in which they are added,
StructureFactorGrid.cpp:66-83, 119-136, 172-189. -/
def gens : Lattice → List Sym
  | .cubic => [!![0, 1, 0; 0, 0, 1; 1, 0, 0], !![-1, 0, 0; 0, 1, 0; 0, 0, 1],
      !![0, 1, 0; 1, 0, 0; 0, 0, 1]]
  | .tetragonal => [!![1, 0, 0; 0, -1, 0; 0, 0, 1], !![-1, 0, 0; 0, 1, 0; 0, 0, 1],
      !![1, 0, 0; 0, 0, 1; 0, 1, 0]]
  | .orthorhombic => [!![1, 0, 0; 0, 1, 0; 0, 0, -1], !![1, 0, 0; 0, -1, 0; 0, 0, 1],
      !![-1, 0, 0; 0, 1, 0; 0, 0, 1]]

/-- Capacity of the array `star`, StructureFactorGrid.cpp:87, 140, 193. -/
def starCap : Lattice → ℕ
  | .cubic => 48
  | .tetragonal => 16
  | .orthorhombic => 16

/-- `nStar_`, StructureFactorGrid.cpp:62, 114, 167. -/
def nStar (h : ℕ) : Lattice → ℕ
  | .cubic => (h + 1) * (h + 2) * (h + 3) / 6
  | .tetragonal => (h + 1) * (h + 1) * (h + 2) / 2
  | .orthorhombic => (h + 1) * (h + 1) * (h + 1)

/-- `nWave_`, StructureFactorGrid.cpp:49. -/
def nWave (h : ℕ) : ℕ := (2 * h + 1) * (2 * h + 1) * (2 * h + 1)

/-- Upper bounds of the loops over `k` and `l`, StructureFactorGrid.cpp:90-95,
143-148, 196-201. -/
def kMax (hMax h : ℕ) : Lattice → ℕ
  | .cubic => h
  | _ => hMax

/-- See `kMax`. -/
def lMax (hMax k : ℕ) : Lattice → ℕ
  | .orthorhombic => hMax
  | _ => k

/-- Roots `g` in the order of the loops. -/
def roots (hMax : ℕ) (lat : Lattice) : List IVec :=
  (List.range (hMax + 1)).flatMap fun h =>
    (List.range (kMax hMax h lat + 1)).flatMap fun k =>
      (List.range (lMax hMax k lat + 1)).map fun l : ℕ => ![(h : ℤ), (k : ℤ), (l : ℤ)]

/-- `starIds_`, `starSizes_` and `waveIntVectors_` as far as they are filled. -/
structure Table where
  ids : List ℕ
  sizes : List ℕ
  waves : List IVec

/-- Storing one wave vector, StructureFactorGrid.cpp:100-103. -/
def putWave (nW : ℕ) (t : Table) (v : IVec) : Out Table := do
  require (t.waves.length < nW)
  ok { t with waves := t.waves ++ [v] }

/-- Body of the loops, StructureFactorGrid.cpp:96-104. -/
def putStar (nS nW cap : ℕ) (group : List Sym) (t : Table) (g : IVec) : Out Table := do
  require (t.ids.length < nS)
  let star ← makeStar cap group g
  loop (putWave nW)
    star { t with ids := t.ids ++ [t.waves.length], sizes := t.sizes ++ [star.length] }

/-- Set-up of the tables, StructureFactorGrid.cpp:60-219, for a group that was
completed. -/
def fill (hMax : ℕ) (lat : Lattice) (group : List Sym) : Out Table := do
  let t ← loop (putStar (nStar hMax lat) (nWave hMax) (starCap lat) group) (roots hMax lat)
    ⟨[], [], []⟩
  check (t.ids.length = nStar hMax lat)
  check (t.waves.length = nWave hMax)
  ok t

end Verif.Crystal
