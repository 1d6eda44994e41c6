import Verif.DdExchange.Model
import Verif.Cpp.Outcome

/-!
# Exchange of groups between processors

Source: `src/ddMd/communicate/Exchanger.cpp` and `src/ddMd/storage/GroupStorage.tpp`.

The storages of bonds, angles and dihedrals are one list of groups: the loops over
`groupExchangers_` followed by loops over the groups of each are loops over this list, and the
type `K` of ids contains the kind of the group. The storage refines a map from ids to groups (C09),
whose order is not meaningful. Atoms are identified by their data (which contain the id), so that
the pointer of a group to an atom is given by the id of the atom (`atomPtr(k)` is `ptr (ids k)`):
pointers are only ever set to the atom with the corresponding id, by looking it up. A pointer is
null, a pointer to a local atom, or a pointer to a ghost at a given position.
Transmission through the buffer is the identity (C12). Assertions are not part of the model.
-/

set_option autoImplicit false

namespace Verif.DdExchange

open Verif.Boundary Verif.DdChem Verif.Cpp

variable {N : Fin 3 → ℕ} {D K : Type}

/-- Pointers that are not null. -/
inductive Ref where
  | loc
  | ghost (pos : Vec)

/-- A group (Group.h:167-185). -/
structure Grp (K D : Type) where
  id : K
  typ : ℤ
  ids : List D
  ptr : D → Option Ref
  plan : Plan

/-- `nPtr() == N`: no pointer is null. -/
def Grp.complete (g : Grp K D) : Bool := g.ids.all fun x => (g.ptr x).isSome

/-- State of a processor. -/
structure PState (K D : Type) where
  base : Local D
  groups : List (Grp K D)

open Classical in
/-- `AtomMap::find`: the local atom with the given id or, if there is none, the first ghost with
this id that was added (C07). In a list of atoms, local atoms come first. -/
noncomputable def look (atoms : List (Atom D)) (x : D) : Option (Atom D) :=
  atoms.find? fun a => decide (a.data = x)

/-- `atomPtr->plan().exchange(i, j)` for a pointer to a local atom. -/
noncomputable def exch (atoms : List (Atom D)) (d : Dir) (x : D) : Bool :=
  ((look atoms x).map fun a => a.plan.exchange d.1 d.2).getD false

/-! ## `markSpanningGroups` -/

open Classical in
/-- An atom of a complete group is counted in `nOut` (GroupStorage.tpp:537-561). -/
noncomputable def isOut (slab : Vec) (p : Proc N) (atoms : List (Atom D)) (g : Grp K D) (d : Dir) (x : D) : Bool :=
  match g.ptr x with
  | none => false
  | some .loc => exch atoms d x
  | some (.ghost y) =>
    if d.2 = 0 then decide (y d.1 < inner slab p d.1 0) else decide (y d.1 > inner slab p d.1 1)

open Classical in
/-- An atom of a complete group is counted in `nIn` (GroupStorage.tpp:537-561). -/
noncomputable def isIn (slab : Vec) (p : Proc N) (atoms : List (Atom D)) (g : Grp K D) (d : Dir) (x : D) : Bool :=
  match g.ptr x with
  | none => false
  | some .loc => !exch atoms d x
  | some (.ghost y) =>
    if d.2 = 0 then decide (y d.1 > outer slab p d.1 0) else decide (y d.1 < outer slab p d.1 1)

/-- `choose` (GroupStorage.tpp:528-565). -/
noncomputable def spans (slab : Vec) (p : Proc N) (atoms : List (Atom D)) (g : Grp K D) (d : Dir) : Bool :=
  g.ids.any (isOut slab p atoms g d) && g.ids.any (isIn slab p atoms g d)

/-- Ghost flags of a group (GroupStorage.tpp:517-614). -/
noncomputable def spanPlan (slab : Vec) (p : Proc N) (atoms : List (Atom D)) (g : Grp K D) : Plan :=
  if g.complete then
    dirs.foldl (fun q d => if gridFlag N d.1 then
      (if spans slab p atoms g d then q.setGhost d.1 d.2 else q.clearGhost d.1 d.2) else q)
      g.plan.clearFlags
  else
    dirs.foldl (fun q d => if gridFlag N d.1 then q.setGhost d.1 d.2 else q) g.plan.clearFlags

/-- Body of the loop of `markSpanningGroups` (GroupStorage.tpp:515-626): flags, then pointers to
ghosts are cleared. -/
noncomputable def markSpan (slab : Vec) (p : Proc N) (atoms : List (Atom D)) (g : Grp K D) : Grp K D :=
  { g with
    plan := spanPlan slab p atoms g
    ptr := fun x => match g.ptr x with
      | some (.ghost _) => none
      | r => r }

/-- Planning (Exchanger.cpp:239-338): plans of atoms, flags of groups. The ghosts are then cleared
(Exchanger.cpp:341); they are not part of this state. -/
noncomputable def planState (slab : Vec) (p : Proc N) (s : PState K D) : PState K D :=
  let b := planAll slab p s.base
  { base := b, groups := s.groups.map (markSpan slab p b.atoms) }

/-! ## `pack` and `unpack` -/

/-- `choose` in `pack` (GroupStorage.tpp:652-667). -/
noncomputable def chosen (atoms : List (Atom D)) (d : Dir) (g : Grp K D) : Bool :=
  g.ids.any fun x => (g.ptr x).isSome && exch atoms d x

/-- Pointers after `pack` (GroupStorage.tpp:655-661). -/
noncomputable def unpoint (atoms : List (Atom D)) (d : Dir) (g : Grp K D) : Grp K D :=
  { g with ptr := fun x => if exch atoms d x then none else g.ptr x }

/-- `nAtom == 0` (GroupStorage.tpp:668-670). -/
def isEmpty (g : Grp K D) : Bool := g.ids.all fun x => (g.ptr x).isNone

/-- Groups that remain after `pack`: empty groups are removed (GroupStorage.tpp:677-681). -/
noncomputable def kept (atoms : List (Atom D)) (d : Dir) (gs : List (Grp K D)) : List (Grp K D) :=
  (gs.map (unpoint atoms d)).filter fun g => !isEmpty g

/-- Groups that are packed (GroupStorage.tpp:671-673). -/
noncomputable def packed (atoms : List (Atom D)) (d : Dir) (gs : List (Grp K D)) : List (Grp K D) :=
  gs.filter (chosen atoms d)

/-- `findGroupLocalAtoms` (AtomMap.h:257-273), at a time without ghosts. -/
noncomputable def findLocal (atoms : List (Atom D)) (g : Grp K D) : Grp K D :=
  { g with ptr := fun x => if (look atoms x).isSome then some .loc else none }

open Classical in
/-- Body of the loop of `unpack` (GroupStorage.tpp:697-709): if a group with this id is present
only its pointers are updated, and the received group is discarded. -/
noncomputable def unpackStep (atoms : List (Atom D)) (gs : List (Grp K D)) (m : Grp K D) : List (Grp K D) :=
  if gs.any fun g => decide (g.id = m.id) then
    gs.map fun g => if g.id = m.id then findLocal atoms g else g
  else gs ++ [findLocal atoms m]

/-- `unpack` (GroupStorage.tpp:687-712). -/
noncomputable def unpack (atoms : List (Atom D)) (gs ms : List (Grp K D)) : List (Grp K D) :=
  ms.foldl (unpackStep atoms) gs

/-- One transfer of `exchangeAtoms` with groups (Exchanger.cpp:363-557): groups are packed before
the atoms are removed, and unpacked after the atoms. -/
noncomputable def exchangeDirG (d : Dir) (G : Proc N → PState K D) : Proc N → PState K D := fun q =>
  let b := exchangeDir d (fun p => (G p).base) q
  if gridFlag N d.1 then
    { base := b
      groups := unpack b.atoms (kept (G q).base.atoms d (G q).groups)
        (packed (G (source d q)).base.atoms d (G (source d q)).groups) }
  else { base := b, groups := (G q).groups }

/-- The transfers of `exchangeAtoms` (Exchanger.cpp:239-559). -/
noncomputable def transfer (slab : Vec) (G : Proc N → PState K D) : Proc N → PState K D :=
  dirs.foldl (fun G d => exchangeDirG d G) (fun p => planState slab p (G p))

/-! ## `markGhosts` and `findGhosts` -/

open Classical in
/-- Flag of one atom (GroupStorage.tpp:790-797). -/
noncomputable def setFlag (d : Dir) (s : Local D) (x : D) : Local D :=
  if s.atoms.any fun a => decide (a.data = x) && !a.plan.ghost d.1 d.2 then
    { atoms := s.atoms.map fun a => if a.data = x then { a with plan := a.plan.setGhost d.1 d.2 } else a
      send := Function.update s.send d (s.send d ++ [x]) }
  else s

/-- Flags for one direction (GroupStorage.tpp:788-800). -/
noncomputable def flagDir (g : Grp K D) (s : Local D) (d : Dir) : Local D :=
  if gridFlag N d.1 && g.plan.ghost d.1 d.2 then
    g.ids.foldl (fun s x => if (g.ptr x).isSome then setFlag d s x else s) s
  else s

/-- Body of the loop of `markGhosts` (GroupStorage.tpp:781-804). -/
noncomputable def flagGroup (N : Fin 3 → ℕ) (s : Local D) (g : Grp K D) : Local D :=
  if g.complete then s else dirs.foldl (flagDir (N := N) g) s

/-- `markGhosts` (GroupStorage.tpp:733-806). -/
noncomputable def markGhosts (N : Fin 3 → ℕ) (s : PState K D) : PState K D :=
  { s with base := s.groups.foldl (flagGroup N) s.base }

/-- `exchangeAtoms` with groups (Exchanger.cpp:201-591). -/
noncomputable def exchangeAtomsG (slab : Vec) (G : Proc N → PState K D) : Proc N → PState K D :=
  fun q => markGhosts N (transfer slab G q)

/-- `findGroupGhostAtoms` (AtomMap.h:279-301); `atoms` are the local atoms and ghosts. -/
noncomputable def findGhost (atoms : List (Atom D)) (g : Grp K D) : Grp K D :=
  { g with ptr := fun x => match g.ptr x with
      | some r => some r
      | none => (look atoms x).map fun a => .ghost a.pos }

/-- `findGhosts` (GroupStorage.tpp:811-827). -/
noncomputable def findGhosts (atoms : List (Atom D)) : List (Grp K D) → Out (List (Grp K D))
  | [] => .ok []
  | g :: gs =>
    let g := if g.complete then g else findGhost atoms g
    if g.complete then
      match findGhosts atoms gs with
      | .ok gs => .ok (g :: gs)
      | o => o
    else .throw

/-- Atoms and ghosts after `exchange` with groups. -/
noncomputable def exchangeG (slab : Vec) (G : Proc N → PState K D) : GState N D :=
  exchangeGhosts (fun q => (exchangeAtomsG slab G q).base.atoms)
    (fun q d => resolve (exchangeAtomsG slab G q).base.atoms ((exchangeAtomsG slab G q).base.send d))

/-- Groups after `exchange` (Exchanger.cpp:106-113, 790-794), on each processor. -/
noncomputable def finalGroups (slab : Vec) (G : Proc N → PState K D) (q : Proc N) : Out (List (Grp K D)) :=
  findGhosts ((exchangeG slab G).atoms q) (exchangeAtomsG slab G q).groups

end Verif.DdExchange
