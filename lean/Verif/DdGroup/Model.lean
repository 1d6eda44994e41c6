import Verif.DdAtomStorage.Model

/-!
# Model of `DdMd::GroupStorage<N>` and `DdMd::Group<N>`

Source: `src/ddMd/storage/GroupStorage.tpp`, `src/ddMd/storage/AtomMap.h`,
`src/ddMd/chemistry/Group.h`.

As for the atom storage, the containers of `util` are lists.  `groupPtrs_` is a
function on ids that is only read and written for ids in range.
-/

set_option autoImplicit false

namespace Verif.DdGroup

open Verif.DdAtomStorage (setAppend setRemove push)
open Verif.DdAtomMap (Map)

/-! ## The storage of groups -/

/-- Members of `GroupStorage` (GroupStorage.h), and the ids of the group objects. -/
structure Store where
  set : List Nat
  res : List Nat
  pend : Option Nat
  ptrs : ℤ → Option Nat
  ids : Nat → ℤ
  cap : Nat
  total : ℤ

/-- Constructor and `allocate` (GroupStorage.tpp:113-131); ids are -1
(Group.h, constructor). -/
def init (cap : Nat) (total : ℤ) : Store :=
  { set := [], res := List.range cap, pend := none, ptrs := fun _ => none, ids := fun _ => -1,
    cap := cap, total := total }

inductive Res where
  | fail
  | ok
  | ptr (g : Nat)
deriving DecidableEq

/-- `newPtr` (GroupStorage.tpp:138-147); `ArrayStack::pop` throws when empty. -/
def newPtr (s : Store) : Store × Res :=
  if s.pend ≠ none then (s, .fail)
  else match s.res with
    | [] => (s, .fail)
    | g :: r => ({ s with res := r, pend := some g, ids := Function.update s.ids g (-1) }, .ptr g)

/-- `returnPtr` (GroupStorage.tpp:153-161). -/
def returnPtr (s : Store) : Store × Res :=
  match s.pend with
  | none => (s, .fail)
  | some g =>
    let ids := Function.update s.ids g (-1)
    match push s.cap s.res g with
    | none => ({ s with ids := ids }, .fail)
    | some r => ({ s with res := r, pend := none, ids := ids }, .ok)

/-- `add` (GroupStorage.tpp:167-196). -/
def add (s : Store) : Store × Res :=
  match s.pend with
  | none => (s, .fail)
  | some g =>
    if s.ids g < 0 ∨ s.ids g ≥ s.total then (s, .fail)
    else if s.ptrs (s.ids g) ≠ none then (s, .fail)
    else match setAppend s.cap s.set g with
      | none => (s, .fail)
      | some l => ({ s with set := l, ptrs := Function.update s.ptrs (s.ids g) (some g)
                            pend := none }, .ok)

/-- `remove` (GroupStorage.tpp:214-228). -/
def remove (s : Store) (g : Nat) : Store × Res :=
  if s.ids g < 0 ∨ s.ids g ≥ s.total then (s, .fail)
  else if s.ptrs (s.ids g) = none then (s, .fail)
  else match push s.cap s.res g with
    | none => (s, .fail)
    | some r => match setRemove s.set g with
      | none => ({ s with res := r }, .fail)
      | some l => ({ s with res := r, set := l, ptrs := Function.update s.ptrs (s.ids g) none
                            ids := Function.update s.ids g (-1) }, .ok)

/-- Loop of `clearGroups` (GroupStorage.tpp:239-245); the argument is the reversed
set. -/
def clearLoop (s : Store) : List Nat → Store × Bool
  | [] => (s, true)
  | g :: l =>
    let s1 := { s with set := l.reverse, ptrs := Function.update s.ptrs (s.ids g) none
                       ids := Function.update s.ids g (-1) }
    match push s.cap s.res g with
    | none => (s1, false)
    | some r => clearLoop { s1 with res := r } l

/-- `clearGroups` (GroupStorage.tpp:234-249). -/
def clearGroups (s : Store) : Store × Res :=
  let t := clearLoop s s.set.reverse
  if t.2 then (t.1, .ok) else (t.1, .fail)

/-- `find` (GroupStorage.h). -/
def find (s : Store) (i : ℤ) : Option Nat := s.ptrs i

/-- `isValid()` (GroupStorage.tpp:259-296). -/
def isValid (s : Store) : Prop :=
  s.set.length + s.res.length = s.cap ∧
  (∀ i g, 0 ≤ i → i < s.total → s.ptrs i = some g → s.ids g = i) ∧
  (∀ g ∈ s.set, find s (s.ids g) = some g)

/-- Calls of a client. -/
inductive Op where
  | newPtr
  | setNewId (i : ℤ)
  | returnPtr
  | add
  | remove (g : Nat)
  | clearGroups

def step (s : Store) : Op → Store × Res
  | .newPtr => newPtr s
  | .setNewId i => match s.pend with
    | none => (s, .fail)
    | some g => ({ s with ids := Function.update s.ids g i }, .ok)
  | .returnPtr => returnPtr s
  | .add => add s
  | .remove g => remove s g
  | .clearGroups => clearGroups s

def run (s : Store) : List Op → Store
  | [] => s
  | op :: ops => run (step s op).1 ops

/-! ## Groups -/

/-- A communication direction: axis and sign (`i < Dimension`, `j < 2`). -/
abbrev Dir := Fin 3 × Fin 2

/-- Members of `Group<N>` used here (Group.h:140-160): pointers, atom ids, `nPtr_`
and the ghost flags of the plan. -/
structure Group (N : Nat) (P : Type) where
  ptrs : Fin N → Option P
  atomIds : Fin N → ℤ
  nPtr : ℤ
  ghost : Dir → Bool

variable {N : Nat} {P : Type}

/-- `setAtomPtr` with a non-null pointer (Group.h). -/
def Group.setAtomPtr (g : Group N P) (i : Fin N) (p : P) : Group N P :=
  { g with nPtr := (if g.ptrs i = none then g.nPtr + 1 else g.nPtr)
           ptrs := Function.update g.ptrs i (some p) }

/-- `clearAtomPtr` (Group.h). -/
def Group.clearAtomPtr (g : Group N P) (i : Fin N) : Group N P :=
  if g.ptrs i ≠ none then { g with nPtr := g.nPtr - 1, ptrs := Function.update g.ptrs i none }
  else g

/-- Loop body of `findGroupLocalAtoms` (AtomMap.h:261-271). -/
def findLocalStep (m : Map P) (s : Group N P × ℤ) (i : Fin N) : Group N P × ℤ :=
  match m.ptrs (s.1.atomIds i) with
  | some p => (s.1.setAtomPtr i p, s.2 + 1)
  | none => (s.1.clearAtomPtr i, s.2)

/-- `findGroupLocalAtoms` (AtomMap.h:257-273): the group and the returned number. -/
def findGroupLocalAtoms (m : Map P) (g : Group N P) : Group N P × ℤ :=
  (List.finRange N).foldl (findLocalStep m) (g, 0)

/-- Loop body of `findGroupGhostAtoms` (AtomMap.h:283-299). -/
def findGhostStep (m : Map P) (s : Group N P × ℤ) (i : Fin N) : Group N P × ℤ :=
  if s.1.ptrs i ≠ none then (s.1, s.2 + 1)
  else match m.ptrs (s.1.atomIds i) with
    | some p => (s.1.setAtomPtr i p, s.2 + 1)
    | none => (s.1.clearAtomPtr i, s.2)

/-- `findGroupGhostAtoms` (AtomMap.h:279-301). -/
def findGroupGhostAtoms (m : Map P) (g : Group N P) : Group N P × ℤ :=
  (List.finRange N).foldl (findGhostStep m) (g, 0)

/-! ## Communication plans of groups -/

/-- The order in which the six directions are visited: `i` outer, `j` inner. -/
def dirs : List Dir := (List.finRange 3).flatMap (fun i => (List.finRange 2).map (fun j => (i, j)))

/-- What `markSpanningGroups` reads of an atom: position, ghost flag, exchange
flags of its plan. -/
structure AtomView (P R : Type) where
  pos : P → Fin 3 → R
  isGhost : P → Bool
  exchange : P → Dir → Bool

variable {R : Type} [LT R] [DecidableLT R]

/-- Does atom `p` count as outside of boundary `d`?
(GroupStorage.tpp:533-561) -/
def countsOut (v : AtomView P R) (inner : Dir → R) (d : Dir) (p : P) : Bool :=
  if v.isGhost p then
    if d.2 = 0 then decide (v.pos p d.1 < inner d) else decide (inner d < v.pos p d.1)
  else v.exchange p d

/-- Does atom `p` count as inside of boundary `d`?
(GroupStorage.tpp:533-561) -/
def countsIn (v : AtomView P R) (outer : Dir → R) (d : Dir) (p : P) : Bool :=
  if v.isGhost p then
    if d.2 = 0 then decide (outer d < v.pos p d.1) else decide (v.pos p d.1 < outer d)
  else !v.exchange p d

/-- Counting loop over the atoms of a complete group (GroupStorage.tpp:528-562). -/
def nOutIn (v : AtomView P R) (inner outer : Dir → R) (d : Dir) (g : Group N P) : Nat × Nat :=
  (List.finRange N).foldl (fun c k => match g.ptrs k with
    | none => c
    | some p => (if countsOut v inner d p then c.1 + 1 else c.1,
                 if countsIn v outer d p then c.2 + 1 else c.2)) (0, 0)

/-- `markSpanningGroups` for one group (GroupStorage.tpp:502-627). -/
def markSpanning (v : AtomView P R) (inner outer : Dir → R) (grid : Fin 3 → Bool)
    (g : Group N P) : Group N P :=
  let flags : Dir → Bool := fun d =>
    if grid d.1 then
      if g.nPtr = N then
        let c := nOutIn v inner outer d g
        decide (c.1 > 0 ∧ c.2 > 0)
      else true
    else false
  (List.finRange N).foldl (fun h k => match h.ptrs k with
    | some p => if v.isGhost p then h.clearAtomPtr k else h
    | none => h) { g with ghost := flags }

/-- State changed by `markGhosts`: ghost flags of the plans of atoms and the send
arrays. -/
structure Marks (P : Type) where
  flag : P → Dir → Bool
  send : Dir → List P

variable [DecidableEq P]

/-- Innermost statement of `markGhosts` (GroupStorage.tpp:789-797). -/
def markOne (d : Dir) (s : Marks P) (p : Option P) : Marks P :=
  match p with
  | none => s
  | some p =>
    if !s.flag p d then
      { flag := Function.update s.flag p (Function.update (s.flag p) d true)
        send := Function.update s.send d (s.send d ++ [p]) }
    else s

/-- `markGhosts` for one group (GroupStorage.tpp:781-803). -/
def markGroup (grid : Fin 3 → Bool) (s : Marks P) (g : Group N P) : Marks P :=
  if g.nPtr < N then
    dirs.foldl (fun s d =>
      if grid d.1 && g.ghost d then
        (List.finRange N).foldl (fun s k => markOne d s (g.ptrs k)) s
      else s) s
  else s

/-- `markGhosts` (GroupStorage.tpp:733-806); `gs` are the groups in iteration
order. -/
def markGhosts (grid : Fin 3 → Bool) (s : Marks P) (gs : List (Group N P)) : Marks P :=
  gs.foldl (markGroup grid) s

/-- `findGhosts` (GroupStorage.tpp:811-826) for one group: `none` if it throws. -/
def findGhosts (m : Map P) (g : Group N P) : Option (Group N P) :=
  if g.nPtr < N then
    let r := findGroupGhostAtoms m g
    if r.2 < N then none else some r.1
  else some g

end Verif.DdGroup
