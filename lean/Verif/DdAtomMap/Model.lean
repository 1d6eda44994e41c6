import Mathlib.Logic.Function.Basic
import Mathlib.Data.List.Basic
import Mathlib.Data.Int.Notation

/-!
# Model of `DdMd::AtomMap`

Source: `src/ddMd/storage/AtomMap.h`, `src/ddMd/storage/AtomMap.cpp`.

`P` is the type of pointers to atoms.  The id of an atom is a datum of the atom
(`Atom::id()`), so the functions take the current ids of all atoms as the
argument `ids`.  All exceptions of this class are thrown before any member is
modified, hence the result `none`.
-/

set_option autoImplicit false

namespace Verif.DdAtomMap

variable {P : Type} [DecidableEq P]

/-- Members of `AtomMap` (AtomMap.h:181-196): `atomPtrs_`, `ghostMap_` (a
multimap, represented by the list of its entries), `nLocal_`,
`nGhostDistinct_`, `totalAtomCapacity_`. -/
structure Map (P : Type) where
  ptrs : ℤ → Option P
  ghosts : List (ℤ × P)
  nLocal : ℤ
  nDistinct : ℤ
  cap : ℤ

/-- `ghostMap_.find(id)`: which entry with the key is returned is unspecified for
a multimap, so it is a parameter of the model. -/
abbrev Pick (P : Type) := List (ℤ × P) → ℤ → Option P

/-- The specification of `multimap::find`: an entry with the key if there is
one. -/
def Pick.OK (pick : Pick P) : Prop :=
  ∀ g k, match pick g k with
    | some p => (k, p) ∈ g
    | none => ∀ p, (k, p) ∉ g

/-- Constructor and `allocate` (AtomMap.cpp:22-28, 40-52). -/
def alloc (cap : ℤ) : Map P :=
  { ptrs := fun _ => none, ghosts := [], nLocal := 0, nDistinct := 0, cap := cap }

/-- `atomId < 0 || atomId >= totalAtomCapacity_`. -/
def Map.bad (m : Map P) (i : ℤ) : Prop := i < 0 ∨ i ≥ m.cap

instance (m : Map P) (i : ℤ) : Decidable (m.bad i) := by unfold Map.bad; infer_instance

/-- `addLocal` (AtomMap.cpp:57-78). -/
def Map.addLocal (m : Map P) (ids : P → ℤ) (p : P) : Option (Map P) :=
  if m.bad (ids p) then none
  else match m.ptrs (ids p) with
    | some _ => none
    | none => some { m with ptrs := Function.update m.ptrs (ids p) (some p), nLocal := m.nLocal + 1 }

/-- "If possible, move an atom from ghostMap to atomPtrs_"
(AtomMap.cpp:97-104 and 154-161), for key `i`. -/
def Map.promote (pick : Pick P) (m : Map P) (i : ℤ) : Map P :=
  if m.ghosts = [] then m
  else match pick m.ghosts i with
    | none => m
    | some q => { m with ptrs := Function.update m.ptrs i (some q)
                         nDistinct := m.nDistinct + 1
                         ghosts := m.ghosts.erase (i, q) }

/-- `removeLocal` (AtomMap.cpp:83-113). -/
def Map.removeLocal (pick : Pick P) (m : Map P) (ids : P → ℤ) (p : P) : Option (Map P) :=
  if m.bad (ids p) then none
  else if m.ptrs (ids p) = some p then
    some (Map.promote pick
      { m with ptrs := Function.update m.ptrs (ids p) none, nLocal := m.nLocal - 1 } (ids p))
  else none

/-- `addGhost` (AtomMap.cpp:120-134). -/
def Map.addGhost (m : Map P) (ids : P → ℤ) (p : P) : Option (Map P) :=
  if m.bad (ids p) then none
  else match m.ptrs (ids p) with
    | none => some { m with ptrs := Function.update m.ptrs (ids p) (some p)
                            nDistinct := m.nDistinct + 1 }
    | some _ => some { m with ghosts := (ids p, p) :: m.ghosts }

/-- `removeGhost` (AtomMap.cpp:139-183). -/
def Map.removeGhost (pick : Pick P) (m : Map P) (ids : P → ℤ) (p : P) : Option (Map P) :=
  if m.bad (ids p) then none
  else if m.ptrs (ids p) = some p then
    some (Map.promote pick
      { m with ptrs := Function.update m.ptrs (ids p) none, nDistinct := m.nDistinct - 1 } (ids p))
  else if m.ptrs (ids p) ≠ none then
    if (ids p, p) ∈ m.ghosts then some { m with ghosts := m.ghosts.erase (ids p, p) } else none
  else none

/-- `nGhost` (AtomMap.h:248-249). -/
def Map.nGhost (m : Map P) : ℤ := m.nDistinct + m.ghosts.length

/-- Loop body of `clearGhosts` (AtomMap.cpp:199-206). -/
def Map.clearOne (ids : P → ℤ) (m : Map P) (p : P) : Map P :=
  if m.ptrs (ids p) = some p then
    { m with ptrs := Function.update m.ptrs (ids p) none, nDistinct := m.nDistinct - 1 }
  else m

/-- `clearGhosts` (AtomMap.cpp:185-208); `gs` lists the ghost set in iteration
order. -/
def Map.clearGhosts (m : Map P) (ids : P → ℤ) (gs : List P) : Option (Map P) :=
  if (gs.length : ℤ) ≠ m.nGhost then none
  else some (gs.foldl (Map.clearOne ids) { m with ghosts := [] })

/-- `find` (AtomMap.h:230-231). -/
def Map.find (m : Map P) (i : ℤ) : Option P := m.ptrs i

/-- `isValid` (AtomMap.cpp:215-255): true iff no exception is thrown. -/
def Map.isValid (m : Map P) (ids : P → ℤ) : Prop :=
  (∀ i p, 0 ≤ i → i < m.cap → m.ptrs i = some p → ids p = i) ∧
  ((((List.range m.cap.toNat).filter (fun i : Nat => (m.ptrs i).isSome)).length : ℤ)
    = m.nLocal + m.nDistinct) ∧
  (∀ e ∈ m.ghosts, e.1 = ids e.2 ∧ m.ptrs e.1 ≠ none)

/-! ## Histories -/

/-- Calls made by a client.  The additions include the assignment of an id to the
atom object before it is registered. -/
inductive Op (P : Type) where
  | addLocal (p : P) (id : ℤ)
  | removeLocal (p : P)
  | addGhost (p : P) (id : ℤ)
  | removeGhost (p : P)
  | clearGhosts (gs : List P)

/-- The map and the ids of all atom objects. -/
structure W (P : Type) where
  m : Map P
  ids : P → ℤ

/-- One call: the new state and whether the call returned normally. -/
def step (pick : Pick P) (w : W P) : Op P → W P × Bool
  | .addLocal p i =>
    let ids := Function.update w.ids p i
    match w.m.addLocal ids p with
    | some m => (⟨m, ids⟩, true)
    | none => (⟨w.m, ids⟩, false)
  | .removeLocal p => match w.m.removeLocal pick w.ids p with
    | some m => (⟨m, w.ids⟩, true)
    | none => (w, false)
  | .addGhost p i =>
    let ids := Function.update w.ids p i
    match w.m.addGhost ids p with
    | some m => (⟨m, ids⟩, true)
    | none => (⟨w.m, ids⟩, false)
  | .removeGhost p => match w.m.removeGhost pick w.ids p with
    | some m => (⟨m, w.ids⟩, true)
    | none => (w, false)
  | .clearGhosts gs => match w.m.clearGhosts w.ids gs with
    | some m => (⟨m, w.ids⟩, true)
    | none => (w, false)

/-- A history of calls; exceptions are caught by the client, who goes on. -/
def run (pick : Pick P) (w : W P) (ops : List (Op P)) : W P :=
  ops.foldl (fun w op => (step pick w op).1) w

end Verif.DdAtomMap
