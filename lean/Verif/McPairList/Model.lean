import Verif.McCellList.Model

/-!
# Model of `McMd::PairList` and `McMd::PairIterator`

Source: `src/mcMd/neighbor/PairList.{h,cpp}`, `src/mcMd/neighbor/PairIterator.h`.

Pointers to atoms are represented by atom ids (`none` = null pointer).  Arrays
are total functions on indices.
-/

namespace Verif.McPairList

open Verif.Boundary Verif.McCellList

/-- Members of `PairList` that change (PairList.h:228-272): `atom1Ptrs_`,
`oldPositions_`, `atom2Ptrs_`, `first_`, `nAtom1_`, `nAtom2_`, `nAtom_`,
`tList1_`, `buildCounter_`.  The statistics `maxNAtom_`, `maxNAtom2_` are
omitted. -/
structure PL where
  atom1 : ℤ → Option Nat
  old : ℤ → Vec
  atom2 : ℤ → Option Nat
  first : ℤ → ℤ
  n1 : ℤ
  n2 : ℤ
  n : ℤ
  t1 : ℤ
  builds : Nat

/-- What `build` reads: atom positions, masks, `Boundary::distanceSq`, the
member `cutoff_` and the two capacities. -/
structure Ctx where
  pos : Nat → Vec
  masked : Nat → Nat → Prop
  dsq : Vec → Vec → ℝ
  cutoff : ℝ
  atomCap : ℤ
  pairCap : ℤ

/-- `PairList::allocate` (PairList.cpp:107-142). -/
def alloc (atomCap : ℤ) : PL :=
  { atom1 := fun _ => none, old := fun _ _ => 0, atom2 := fun _ => none
    first := fun k => if k = 0 then 0 else -1
    n1 := 0, n2 := 0, n := 0, t1 := atomCap - 1, builds := 0 }

/-- The resetting of counters, common to `setup` (PairList.cpp:147-155), `clear`
(160-168) and `build` (189-194). -/
def PL.reset (st : PL) (atomCap : ℤ) : PL :=
  { st with n1 := 0, n2 := 0, n := 0, t1 := atomCap - 1
            first := Function.update st.first 0 0 }

open Classical in
/-- Body of the loop over `jp` for primary atom `i` (PairList.cpp:222-264); the
flag is `foundNeighbor`; `none` is the overflow exception. -/
noncomputable def inner (c : Ctx) (i : Nat) (x : PL × Bool) (j : Nat) : Option (PL × Bool) :=
  let st := x.1
  if j > i then
    if ¬ c.masked i j then
      if c.dsq (c.pos i) (c.pos j) < c.cutoff * c.cutoff then
        if st.n2 ≥ c.pairCap then none
        else
          let st1 := if x.2 then st else
            { st with atom1 := Function.update st.atom1 st.n1 (some i)
                      old := Function.update st.old st.n1 (c.pos i) }
          some ({ st1 with atom2 := Function.update st1.atom2 st1.n2 (some j)
                           n2 := st1.n2 + 1 }, true)
      else some x
    else some x
  else some x

/-- Body of the loop over `ip` (PairList.cpp:208-280): process primary atom `i`
with the neighbour array `nbrs`. -/
noncomputable def outer (c : Ctx) (nbrs : List Nat) (st : PL) (i : Nat) : Option PL :=
  let st := { st with n := st.n + 1 }
  if st.n > c.atomCap then none
  else match nbrs.foldlM (inner c i) (st, false) with
    | none => none
    | some (st, true) =>
      some { st with n1 := st.n1 + 1
                     first := Function.update st.first (st.n1 + 1) st.n2 }
    | some (st, false) =>
      some { st with atom1 := Function.update st.atom1 st.t1 (some i)
                     old := Function.update st.old st.t1 (c.pos i)
                     t1 := st.t1 - 1 }

/-- Body of the loop over cells (PairList.cpp:198-281).  The atoms of cell `ic`
are the first `nCellAtom` entries of the neighbour array. -/
noncomputable def cellBody (c : Ctx) (cl : CL) (st : PL) (ic : Nat) : Option PL :=
  let nb := cl.cellNeighbors ic
  (nb.1.take nb.2).foldlM (outer c nb.1) st

/-- `PairList::build` (PairList.cpp:173-290). -/
noncomputable def build (c : Ctx) (cl : CL) (st : PL) : Option PL :=
  match (List.range cl.tot.toNat).foldlM (cellBody c cl) (st.reset c.atomCap) with
  | none => none
  | some st => some { st with builds := st.builds + 1 }

/-- A loop `for (pairList.begin(iter); iter.notEnd(); ++iter) iter.getPair(..)`
(PairList.cpp:295-304, PairIterator.h:161-199) from iterator state
`(atom1Id_, atom2Id_) = (a1, a2)`: the list of pairs visited.  Each `++` increases `atom2Id_`
by one, so the loop makes `nAtom2_ - atom2Id_` rounds, which is the first
argument. -/
def PL.iter (st : PL) : Nat → ℤ → ℤ → List (Option Nat × Option Nat)
  | 0, _, _ => []
  | f + 1, a1, a2 =>
    (st.atom1 a1, st.atom2 a2) ::
      st.iter f (if a2 + 1 = st.first (a1 + 1) then a1 + 1 else a1) (a2 + 1)

/-- All pairs visited by an iteration over the list. -/
def PL.pairs (st : PL) : List (Option Nat × Option Nat) := st.iter st.n2.toNat 0 0

/-- `PairList::isCurrent` (PairList.cpp:311-343) when atoms have positions
`pos`; a null pointer (undefined behaviour in the code) makes it fail. -/
def PL.isCurrent (st : PL) (dsq : Vec → Vec → ℝ) (skin : ℝ) (atomCap : ℤ) (pos : Nat → Vec) :
    Prop :=
  st.builds ≠ 0 ∧
  ∀ ip, (0 ≤ ip ∧ ip < st.n1 ∨ st.t1 < ip ∧ ip ≤ atomCap - 1) →
    ∃ a, st.atom1 ip = some a ∧ dsq (pos a) (st.old ip) ≤ 0.25 * skin * skin

end Verif.McPairList
