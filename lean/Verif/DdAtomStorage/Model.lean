import Verif.DdAtomMap.Model

/-!
# Model of `DdMd::AtomStorage`

Source: `src/ddMd/storage/AtomStorage.h`, `src/ddMd/storage/AtomStorage.cpp`.

`ArraySet`, `ArrayStack` and `DArray` belong to the `util` submodule, which is
not part of this checkout; they are represented by lists with the documented
behaviour: `ArraySet::append` appends, `ArraySet::remove` moves the last element
into the hole, `ArraySet::pop` removes the last element, and every failing
precondition is an exception.  Statistics (`maxNAtomLocal_` ...) and MPI
reductions are not modelled.
-/

set_option autoImplicit false

namespace Verif.DdAtomStorage

open Verif.DdAtomMap

/-- The address of an atom: an element of `atoms_` or of `ghosts_`. -/
inductive Ptr where
  | atom (i : Nat)
  | ghost (i : Nat)
deriving DecidableEq

/-- `atomSet_`, `atomReservoir_` (top first) and `newAtomPtr_`, or their ghost
counterparts (AtomStorage.h:495-528). -/
structure Side where
  set : List Nat
  res : List Nat
  pend : Option Nat

/-- Members of `AtomStorage`, and the data of the atom objects it owns: id,
`isGhost` flag, position. -/
structure Store (V : Type) where
  at_ : Side
  gh : Side
  map : Map Ptr
  ids : Ptr → ℤ
  flag : Ptr → Bool
  pos : Ptr → V
  snap : Nat → V
  locked : Bool
  cart : Bool
  acap : Nat
  gcap : Nat

/-- Empty containers, all slots in the reservoir with slot 0 on top
(AtomStorage.cpp:126-131, 135-139). -/
def Side.init (cap : Nat) : Side := { set := [], res := List.range cap, pend := none }

variable {V : Type}

/-- Constructor and `allocate` (AtomStorage.cpp:26-48, 119-145).  Ids start as -1
(AtomArray.cpp:88-99); initial positions are those of the `Vector` constructor,
here any. -/
def init (acap gcap : Nat) (total : ℤ) (pos : Ptr → V) (snap : Nat → V) : Store V :=
  { at_ := .init acap, gh := .init gcap, map := alloc total, ids := fun _ => -1,
    flag := fun _ => false, pos := pos, snap := snap, locked := false, cart := false,
    acap := acap, gcap := gcap }

/-- `ArraySet::append`. -/
def setAppend (cap : Nat) (l : List Nat) (i : Nat) : Option (List Nat) :=
  if i ∈ l ∨ cap ≤ l.length then none else some (l ++ [i])

/-- `ArraySet::remove`: the last element takes the place of the removed one. -/
def setRemove (l : List Nat) (i : Nat) : Option (List Nat) :=
  if i ∈ l then some ((l.set (l.idxOf i) (l.getLastD 0)).dropLast) else none

/-- `ArrayStack::push`. -/
def push (cap : Nat) (l : List Nat) (i : Nat) : Option (List Nat) :=
  if cap ≤ l.length then none else some (i :: l)

/-- Outcome of a call: an exception, normal return, or a returned pointer. -/
inductive Res where
  | fail
  | ok
  | ptr (p : Ptr)
deriving DecidableEq

/-- `newAtomPtr` (AtomStorage.cpp:187-203), with `Atom::clear` (Atom.cpp:69-80) for
the id and the flag. -/
def newAtomPtr (s : Store V) : Store V × Res :=
  if s.at_.pend ≠ none then (s, .fail)
  else if s.locked then (s, .fail)
  else match s.at_.res with
    | [] => (s, .fail)
    | i :: r =>
      ({ s with at_ := { s.at_ with res := r, pend := some i }
                ids := Function.update s.ids (.atom i) (-1)
                flag := Function.update s.flag (.atom i) false }, .ptr (.atom i))

/-- `addNewAtom` (AtomStorage.cpp:208-227). -/
def addNewAtom (s : Store V) : Store V × Res :=
  match s.at_.pend with
  | none => (s, .fail)
  | some i =>
    if s.locked then (s, .fail)
    else match s.map.addLocal s.ids (.atom i) with
      | none => (s, .fail)
      | some m => match setAppend s.acap s.at_.set i with
        | none => ({ s with map := m }, .fail)
        | some l => ({ s with map := m
                              at_ := { s.at_ with set := l, pend := none }
                              flag := Function.update s.flag (.atom i) false }, .ok)

/-- `removeAtom` (AtomStorage.cpp:240-245). -/
def removeAtom (pick : Pick Ptr) (s : Store V) (p : Ptr) : Store V × Res :=
  match s.map.removeLocal pick s.ids p with
  | none => (s, .fail)
  | some m => match p with
    | .ghost _ => ({ s with map := m }, .fail)
    | .atom i => match setRemove s.at_.set i with
      | none => ({ s with map := m }, .fail)
      | some l => match push s.acap s.at_.res i with
        | none => ({ s with map := m, at_ := { s.at_ with set := l } }, .fail)
        | some r => ({ s with map := m, at_ := { s.at_ with set := l, res := r } }, .ok)

/-- Loop of `clearAtoms` (AtomStorage.cpp:257-262); the argument is the reversed
set. -/
def clearAtomsLoop (pick : Pick Ptr) (s : Store V) : List Nat → Store V × Bool
  | [] => (s, true)
  | i :: l =>
    match s.map.removeLocal pick s.ids (.atom i) with
    | none => ({ s with at_ := { s.at_ with set := l.reverse } }, false)
    | some m => match push s.acap s.at_.res i with
      | none => ({ s with map := m, at_ := { s.at_ with set := l.reverse } }, false)
      | some r => clearAtomsLoop pick
          { s with map := m, at_ := { s.at_ with set := l.reverse, res := r } } l

/-- `clearAtoms` (AtomStorage.cpp:250-271). -/
def clearAtoms (pick : Pick Ptr) (s : Store V) : Store V × Res :=
  if s.locked then (s, .fail)
  else
    let t := clearAtomsLoop pick s s.at_.set.reverse
    if t.2 then (if t.1.map.nLocal ≠ 0 then (t.1, .fail) else (t.1, .ok)) else (t.1, .fail)

/-- `newGhostPtr` (AtomStorage.cpp:278-292). -/
def newGhostPtr (s : Store V) : Store V × Res :=
  if s.gh.pend ≠ none then (s, .fail)
  else if s.locked then (s, .fail)
  else match s.gh.res with
    | [] => (s, .fail)
    | i :: r =>
      ({ s with gh := { s.gh with res := r, pend := some i }
                ids := Function.update s.ids (.ghost i) (-1)
                flag := Function.update s.flag (.ghost i) true }, .ptr (.ghost i))

/-- `addNewGhost` (AtomStorage.cpp:297-318). -/
def addNewGhost (s : Store V) : Store V × Res :=
  match s.gh.pend with
  | none => (s, .fail)
  | some i =>
    if s.locked then (s, .fail)
    else match s.map.addGhost s.ids (.ghost i) with
      | none => (s, .fail)
      | some m => match setAppend s.gcap s.gh.set i with
        | none => ({ s with map := m }, .fail)
        | some l => ({ s with map := m
                              gh := { s.gh with set := l, pend := none }
                              flag := Function.update s.flag (.ghost i) true }, .ok)

/-- `removeGhost` (AtomStorage.cpp:331-339). -/
def removeGhost (pick : Pick Ptr) (s : Store V) (p : Ptr) : Store V × Res :=
  if s.locked then (s, .fail)
  else match s.map.removeGhost pick s.ids p with
    | none => (s, .fail)
    | some m => match p with
      | .atom _ => ({ s with map := m }, .fail)
      | .ghost i => match setRemove s.gh.set i with
        | none => ({ s with map := m }, .fail)
        | some l => match push s.gcap s.gh.res i with
          | none => ({ s with map := m, gh := { s.gh with set := l } }, .fail)
          | some r => ({ s with map := m, gh := { s.gh with set := l, res := r } }, .ok)

/-- Loop of `clearGhosts` (AtomStorage.cpp:355-358): the set is emptied from its
end into the reservoir; the argument is the reversed set. -/
def drain (cap : Nat) (g : Side) : List Nat → Side × Bool
  | [] => ({ g with set := [] }, true)
  | i :: l => match push cap g.res i with
    | none => ({ g with set := l.reverse }, false)
    | some r => drain cap { g with res := r } l

/-- `clearGhosts` (AtomStorage.cpp:344-369). -/
def clearGhosts (s : Store V) : Store V × Res :=
  if s.locked then (s, .fail)
  else match s.map.clearGhosts s.ids (s.gh.set.map Ptr.ghost) with
    | none => (s, .fail)
    | some m =>
      let t := drain s.gcap s.gh s.gh.set.reverse
      let s' := { s with map := m, gh := t.1 }
      if t.2 then
        if m.nGhost ≠ 0 then (s', .fail)
        else if m.nDistinct ≠ 0 then (s', .fail)
        else (s', .ok)
      else (s', .fail)

/-- `makeSnapshot` (AtomStorage.cpp:376-390). -/
def makeSnapshot (s : Store V) : Store V × Res :=
  if !s.cart then (s, .fail)
  else ({ s with snap := fun k => match s.at_.set[k]? with
                    | some i => s.pos (.atom i)
                    | none => s.snap k
                 locked := true }, .ok)

/-- `clearSnapshot` (AtomStorage.cpp:395-398). -/
def clearSnapshot (s : Store V) : Store V × Res := ({ s with locked := false }, .ok)

/-- `maxSqDisplacement` (AtomStorage.cpp:403-425); `d x y` is the square of the
difference of two vectors. -/
def maxSqDisplacement {R : Type} [Zero R] [LT R] [DecidableLT R] (d : V → V → R) (s : Store V) :
    Option R :=
  if !s.cart then none
  else if !s.locked then none
  else some ((s.at_.set.zipIdx.map (fun e => d (s.pos (.atom e.1)) (s.snap e.2))).foldl
    (fun m x => if m < x then x else m) 0)

/-- Applies `f` to the position of each element of a list of atoms, in order. -/
def mapPos (f : V → V) (pos : Ptr → V) (l : List Ptr) : Ptr → V :=
  l.foldl (fun q p => Function.update q p (f (q p))) pos

/-- `transformCartToGen` and `transformGenToCart` (AtomStorage.cpp:453-503);
`toCart` selects the direction, `f` is the transformation of the boundary. -/
def transform (toCart : Bool) (f : V → V) (s : Store V) : Store V × Res :=
  if s.cart = toCart then (s, .fail)
  else ({ s with pos := mapPos f (mapPos f s.pos (s.at_.set.map Ptr.atom)) (s.gh.set.map Ptr.ghost)
                 cart := toCart }, .ok)

/-- `isValid` (AtomStorage.cpp:592-652), true iff no exception is thrown. -/
def isValid (s : Store V) : Prop :=
  s.at_.set.length + s.at_.res.length = s.acap ∧
  s.gh.set.length + s.gh.res.length = s.gcap ∧
  (s.gh.set.length : ℤ) = s.map.nGhost ∧
  s.map.isValid s.ids ∧
  (∀ i ∈ s.at_.set, s.flag (.atom i) = false ∧ s.map.find (s.ids (.atom i)) = some (.atom i)) ∧
  (∀ i ∈ s.gh.set, s.flag (.ghost i) = true ∧ s.map.find (s.ids (.ghost i)) ≠ none)

/-- Calls of a client, including the assignment of an id to the pending atom
(`ptr->setId(id)`), of positions, and of the coordinate flag. -/
inductive Op (V : Type) where
  | newAtomPtr
  | setNewAtomId (i : ℤ)
  | addNewAtom
  | removeAtom (p : Ptr)
  | clearAtoms
  | newGhostPtr
  | setNewGhostId (i : ℤ)
  | addNewGhost
  | removeGhost (p : Ptr)
  | clearGhosts
  | makeSnapshot
  | clearSnapshot
  | setPos (p : Ptr) (x : V)
  | transform (toCart : Bool) (f : V → V)

/-- One call. -/
def step (pick : Pick Ptr) (s : Store V) : Op V → Store V × Res
  | .newAtomPtr => newAtomPtr s
  | .setNewAtomId i => match s.at_.pend with
    | none => (s, .fail)
    | some k => ({ s with ids := Function.update s.ids (.atom k) i }, .ok)
  | .addNewAtom => addNewAtom s
  | .removeAtom p => removeAtom pick s p
  | .clearAtoms => clearAtoms pick s
  | .newGhostPtr => newGhostPtr s
  | .setNewGhostId i => match s.gh.pend with
    | none => (s, .fail)
    | some k => ({ s with ids := Function.update s.ids (.ghost k) i }, .ok)
  | .addNewGhost => addNewGhost s
  | .removeGhost p => removeGhost pick s p
  | .clearGhosts => clearGhosts s
  | .makeSnapshot => makeSnapshot s
  | .clearSnapshot => clearSnapshot s
  | .setPos p x => ({ s with pos := Function.update s.pos p x }, .ok)
  | .transform c f => transform c f s

/-- A history; exceptions are caught by the client, who goes on. -/
def run (pick : Pick Ptr) (s : Store V) : List (Op V) → Store V
  | [] => s
  | op :: ops => run pick (step pick s op).1 ops

end Verif.DdAtomStorage
