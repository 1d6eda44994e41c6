import Mathlib.Logic.Function.Basic

/-!
# Model of `McMd::Cell` (one cell of the Monte Carlo cell list)

Source: `src/mcMd/neighbor/Cell.h`, `src/mcMd/neighbor/Cell.cpp`,
`src/mcMd/neighbor/CellTag.h`.

Atoms are represented by their global ids (`Atom::id()`), a null pointer by
`none`.  The compile time constant `MaxAtomCell` (61, or 253 with
`SIMP_COULOMB`, Cell.h:45-50) is the parameter `cap`.
-/

namespace Verif.McCell

/-- Data members of `Cell` (Cell.h:132-142): the pointer array `atoms_`,
`nAtomCell_`, `firstEmptyPos_`, `firstClearPos_`.  The C array of length `cap`
is a total function; the code never reads or writes an index `≥ cap` on a
reachable state (theorem `addAtom_slot_lt` in `Lemmas.lean`). -/
structure Cell where
  atoms : Nat → Option Nat
  nAtom : Int
  firstEmpty : Nat
  firstClear : Nat

/-- `Cell::clear` (Cell.cpp:25-33), also run by the constructor
(Cell.cpp:19-20). -/
def Cell.clear : Cell :=
  { atoms := fun _ => none, nAtom := 0, firstEmpty := 0, firstClear := 0 }

/-- The loop `i = firstClearPos_ - 1; while (i >= 0 && atoms_[i] == 0) i--;
firstClearPos_ = i + 1` (Cell.h:172-176): returns the new `firstClearPos_`. -/
def scanDown (atoms : Nat → Option Nat) : Nat → Nat
  | 0 => 0
  | k + 1 => match atoms k with
    | none => scanDown atoms k
    | some _ => k + 1

/-- `Cell::deleteAtom` (Cell.h:157-183) for an atom whose tag records slot
`pos`.  Clearing of the tag (Cell.h:180-181) is done by the callers of this
definition, which own the tags. -/
def Cell.deleteAtom (c : Cell) (pos : Nat) : Cell :=
  let atoms := Function.update c.atoms pos none
  { atoms := atoms
    nAtom := c.nAtom - 1
    firstEmpty := if c.firstEmpty > pos then pos else c.firstEmpty
    firstClear := scanDown atoms c.firstClear }

/-- The search loop of Cell.h:215-220: the first `i` with `e < i < cap` and
`atoms_[i] == 0`, or `e` itself if there is none (the loop then leaves
`firstEmptyPos_` unchanged). -/
def nextEmpty (cap : Nat) (atoms : Nat → Option Nat) (e : Nat) : Nat :=
  match (List.range' (e + 1) (cap - (e + 1))).find? (fun i => (atoms i).isNone) with
  | some i => i
  | none => e

/-- `Cell::addAtom` (Cell.h:188-233).  `none` is the exception "Too many atoms
in one cell", thrown before any modification; otherwise the new cell together
with the slot stored in `cellTag.cellPos`. -/
def Cell.addAtom (cap : Nat) (c : Cell) (a : Nat) : Option (Cell × Nat) :=
  if c.firstEmpty = cap then none
  else
    let atoms := Function.update c.atoms c.firstEmpty (some a)
    let n := c.nAtom + 1
    if c.firstEmpty < cap - 1 then
      if c.firstEmpty = c.firstClear then
        some ({ atoms := atoms, nAtom := n, firstEmpty := c.firstEmpty + 1,
                firstClear := c.firstClear + 1 }, c.firstEmpty)
      else
        some ({ atoms := atoms, nAtom := n, firstEmpty := nextEmpty cap atoms c.firstEmpty,
                firstClear := c.firstClear }, c.firstEmpty)
    else
      some ({ atoms := atoms, nAtom := n, firstEmpty := cap, firstClear := cap },
        c.firstEmpty)

/-- The atoms visited by a loop over the cell, in order, as written in
`CellList::getCellNeighbors` (CellList.cpp:167-173 and 196-201):
`for (jp = 0; jp < firstClearPos(); ++jp) if (atomPtr(jp) != 0) ...`. -/
def Cell.list (c : Cell) : List Nat :=
  (List.range c.firstClear).filterMap c.atoms

/-- `Cell::isValid` (Cell.cpp:39-77) for cell `icell`; `tag a` is
`(cellTags[a].cellId, cellTags[a].cellPos)`.  True iff no exception is
thrown. -/
def Cell.isValid (cap : Nat) (c : Cell) (tag : Nat → Option (Nat × Nat)) (icell : Nat) :
    Prop :=
  (∀ jp, jp < cap → match c.atoms jp with
    | some a => tag a = some (icell, jp) ∧ jp < c.firstClear
    | none => c.firstEmpty ≤ jp) ∧
  (0 < c.firstClear → c.atoms (c.firstClear - 1) ≠ none) ∧
  (((List.range cap).filterMap c.atoms).length : Int) = c.nAtom

/-! ## A cell together with the tags of its atoms -/

/-- One cell and the `cellPos` member of the tag of every atom
(`none` = `NullIndex`). -/
structure St where
  cell : Cell
  tag : Nat → Option Nat

/-- Operations on a cell. -/
inductive Op where
  | add (a : Nat)
  | del (a : Nat)
  | clear

/-- Outcome of an operation: normal return, exception, or undefined behaviour
(`atoms_[-1] = 0` when an atom that is not in the cell is deleted). -/
inductive Res (σ : Type) where
  | ok (s : σ)
  | throw
  | ub

/-- One operation on a cell and its tags.  `clear` also clears the tags, as in
`CellList::clear` (CellList.cpp:44-60). -/
def step (cap : Nat) (s : St) : Op → Res St
  | .add a => match s.cell.addAtom cap a with
    | none => .throw
    | some (c, p) => .ok { cell := c, tag := Function.update s.tag a (some p) }
  | .del a => match s.tag a with
    | none => .ub
    | some p => .ok { cell := s.cell.deleteAtom p, tag := Function.update s.tag a none }
  | .clear => .ok { cell := Cell.clear, tag := fun _ => none }

/-- Run a list of operations, stopping at the first abnormal outcome. -/
def run (cap : Nat) (s : St) : List Op → Res St
  | [] => .ok s
  | op :: ops => match step cap s op with
    | .ok s' => run cap s' ops
    | .throw => .throw
    | .ub => .ub

/-- The initial state: an empty cell and unset tags. -/
def init : St := { cell := Cell.clear, tag := fun _ => none }

end Verif.McCell
