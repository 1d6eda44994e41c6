import Verif.DdDomain.Model
import Verif.DdChem.Model

/-!
# Exchange of atoms and ghosts between processors

Source: `src/ddMd/communicate/Exchanger.cpp`.

All processors execute the same program and meet in each transfer; the model performs one
transfer for all processors at once (`Async.lean` shows that every interleaving of the
processors with FIFO message queues gives this result). Positions are real numbers in
generalized coordinates. Processors are given by their position in the processor grid;
`Topology.lean` shows that neighbours, shifts and bounds are those of `Domain`.
Transmission of atoms through the buffer is the identity (C12). The storage is represented
by the list of its atoms, in an order that is not meaningful (C08); capacities are not
modelled. Groups are modelled separately.
-/

set_option autoImplicit false

namespace Verif.DdExchange

open Verif.Boundary Verif.DdChem

/-- Processors of a grid with `N i` processors in direction `i`. -/
abbrev Proc (N : Fin 3 → ℕ) := (i : Fin 3) → Fin (N i)

/-- Transfer directions `(i, j)`: `j = 0` sends to the lower neighbour. -/
abbrev Dir := Fin 3 × Fin 2

variable {N : Fin 3 → ℕ}

/-- Next coordinate in a periodic grid. -/
def up {n : ℕ} (c : Fin n) : Fin n :=
  if h : c.val + 1 < n then ⟨c.val + 1, h⟩ else ⟨0, by have := c.2; omega⟩

/-- Previous coordinate in a periodic grid. -/
def down {n : ℕ} (c : Fin n) : Fin n :=
  if c.val = 0 then ⟨n - 1, by have := c.2; omega⟩ else ⟨c.val - 1, by have := c.2; omega⟩

/-- `Domain::sourceRank(i, j)`. -/
def source (d : Dir) (p : Proc N) : Proc N :=
  Function.update p d.1 (if d.2 = 0 then up (p d.1) else down (p d.1))

/-- `Domain::destRank(i, j)`. -/
def dest (d : Dir) (p : Proc N) : Proc N :=
  Function.update p d.1 (if d.2 = 0 then down (p d.1) else up (p d.1))

/-- `Domain::shift(i, j)`. -/
def shift (d : Dir) (p : Proc N) : ℤ :=
  if d.2 = 0 then (if (p d.1).val + 1 = N d.1 then 1 else 0) else (if (p d.1).val = 0 then -1 else 0)

/-- `Domain::domainBound(i, j)`. -/
noncomputable def bound (p : Proc N) (i : Fin 3) (j : Fin 2) : ℝ :=
  (((p i).val : ℝ) + (j.val : ℝ)) * (1 / (N i : ℝ))

/-- An atom: `D` contains all data that the exchange does not change (id, type, velocity,
mask, ...). -/
structure Atom (D : Type) where
  data : D
  pos : Vec
  plan : Plan

variable {D : Type}

/-- `position()[i] += rshift` (Exchanger.cpp:433-435, 497-499, 696-698, 743-745); the test
`if (shift)` avoids the addition of zero. -/
noncomputable def Atom.move (a : Atom D) (i : Fin 3) (s : ℤ) : Atom D :=
  if s ≠ 0 then { a with pos := Function.update a.pos i (a.pos i + (s : ℝ)) } else a

/-! ## Plans -/

/-- Bounds of the slabs (Exchanger.cpp:216-231): `inner_`. -/
noncomputable def inner (slab : Vec) (p : Proc N) (i : Fin 3) (j : Fin 2) : ℝ :=
  if j = 0 then bound p i j + slab i else bound p i j - slab i

/-- `outer_`. -/
noncomputable def outer (slab : Vec) (p : Proc N) (i : Fin 3) (j : Fin 2) : ℝ :=
  if j = 0 then bound p i j - slab i else bound p i j + slab i

open Classical in
/-- Body of the loop over `j` (Exchanger.cpp:252-300). -/
noncomputable def planStep (slab : Vec) (p : Proc N) (x : Vec) (q : Plan) (d : Dir) : Plan :=
  let i := d.1
  if d.2 = 0 then
    if x i < bound p i 0 then
      let q := q.setExchange i 0
      if x i > outer slab p i 0 then q.setGhost i 1 else q
    else if x i < inner slab p i 0 then q.setGhost i 0 else q
  else
    if x i > bound p i 1 then
      let q := q.setExchange i 1
      if x i < outer slab p i 1 then q.setGhost i 0 else q
    else if x i > inner slab p i 1 then q.setGhost i 1 else q

/-- The transfers in the order of the loops. -/
def dirs : List Dir := [(0, 0), (0, 1), (1, 0), (1, 1), (2, 0), (2, 1)]

/-- Plan of a local atom (Exchanger.cpp:239-302). -/
noncomputable def makePlan (slab : Vec) (p : Proc N) (x : Vec) (q : Plan) : Plan :=
  dirs.foldl (planStep slab p x) q.clearFlags

/-- `gridFlags_[i]` (Exchanger.cpp:232-236). -/
def gridFlag (N : Fin 3 → ℕ) (i : Fin 3) : Bool := decide (1 < N i)

/-- State of a processor: local atoms, and `sendArray_`, whose pointers are represented by the
data of the atoms (which contain the atom id). -/
structure Local (D : Type) where
  atoms : List (Atom D)
  send : Dir → List D

/-- `isHome` in the planning loop (Exchanger.cpp:243, 264-266, 283-285): cleared if the plan has
an exchange flag in a direction with more than one processor. -/
def homeAtPlan (N : Fin 3 → ℕ) (q : Plan) : Bool :=
  dirs.all fun d => !(q.exchange d.1 d.2 && gridFlag N d.1)

/-- Planning loop (Exchanger.cpp:239-316). An atom of which no ghost flag is set is appended to
no array, so that the test of `isGhost` has no effect. -/
noncomputable def planAll (slab : Vec) (p : Proc N) (s : Local D) : Local D :=
  let atoms := s.atoms.map fun a => { a with plan := makePlan slab p a.pos a.plan }
  { atoms := atoms
    send := fun d => (atoms.filter fun a => homeAtPlan N a.plan && a.plan.ghost d.1 d.2).map (·.data) }

/-- `isHome` for a received atom (Exchanger.cpp:518-529). -/
def homeAfter (N : Fin 3 → ℕ) (i : Fin 3) (q : Plan) : Bool :=
  dirs.all fun d => !(decide (i < d.1) && gridFlag N d.1 && q.exchange d.1 d.2)

/-- One transfer `(i, j)` of `exchangeAtoms` (Exchanger.cpp:363-557). -/
noncomputable def exchangeDir (d : Dir) (G : Proc N → Local D) : Proc N → Local D := fun q =>
  if gridFlag N d.1 then
    let received := ((G (source d q)).atoms.filter fun a => a.plan.exchange d.1 d.2).map
      fun a => a.move d.1 (shift d q)
    { atoms := ((G q).atoms.filter fun a => !a.plan.exchange d.1 d.2) ++ received
      send := fun d' => (G q).send d' ++
        (received.filter fun a => homeAfter N d.1 a.plan && a.plan.ghost d'.1 d'.2).map (·.data) }
  else
    { G q with
      atoms := (G q).atoms.map fun a =>
        if a.plan.exchange d.1 d.2 then a.move d.1 (shift d q) else a }

/-- `exchangeAtoms` (Exchanger.cpp:201-591), without groups. -/
noncomputable def exchangeAtoms (slab : Vec) (G : Proc N → Local D) : Proc N → Local D :=
  dirs.foldl (fun G d => exchangeDir d G) (fun p => planAll slab p (G p))

/-! ## Ghosts -/

/-- State during the exchange of ghosts: `atoms` are the local atoms followed by the ghosts in
order of creation; pointers in `sendArray_` and `recvArray_` are indices in this list. -/
structure GState (N : Fin 3 → ℕ) (D : Type) where
  atoms : Proc N → List (Atom D)
  send : Proc N → Dir → List ℕ
  recv : Proc N → Dir → List ℕ

/-- Processing of a received ghost (Exchanger.cpp:741-754; for one processor 684-698, where
the plan is copied unchanged). -/
noncomputable def receive (N : Fin 3 → ℕ) (d : Dir) (s : ℤ) (a : Atom D) : Atom D :=
  let a := a.move d.1 s
  if gridFlag N d.1 ∧ d.2 = 0 then { a with plan := a.plan.clearGhost d.1 1 } else a

/-- Ghosts created on processor `q` in transfer `d`. -/
noncomputable def newGhosts (d : Dir) (G : GState N D) (q : Proc N) : List (Atom D) :=
  ((G.send (source d q) d).filterMap fun k => (G.atoms (source d q))[k]?).map
    (receive N d (shift d q))

/-- One transfer of `exchangeGhosts` (Exchanger.cpp:664-788). If there is one processor in
direction `i`, `source d q = q`, and the loop over the first `size` elements of
`sendArray_(i, j)` appends only to arrays of other directions. -/
noncomputable def ghostDir (d : Dir) (G : GState N D) : GState N D :=
  { atoms := fun q => G.atoms q ++ newGhosts d G q
    recv := fun q => Function.update (G.recv q) d
      (List.range' (G.atoms q).length (newGhosts d G q).length)
    send := fun q d' =>
      if d.1 < d'.1 then
        G.send q d' ++ (List.range' (G.atoms q).length (newGhosts d G q).length).filter fun k =>
          ((newGhosts d G q)[k - (G.atoms q).length]?.map fun a => a.plan.ghost d'.1 d'.2).getD false
      else G.send q d' }

/-- `exchangeGhosts` (Exchanger.cpp:600-814) from given local atoms and send arrays; the receive
arrays are cleared first (Exchanger.cpp:617-622). -/
noncomputable def exchangeGhosts (atoms : Proc N → List (Atom D)) (send : Proc N → Dir → List ℕ) :
    GState N D :=
  dirs.foldl (fun G d => ghostDir d G) ⟨atoms, send, fun _ _ => []⟩

open Classical in
/-- `sendArray_` as indices in the list of local atoms: position of the atom with given data
(atoms are identified by their data, which contain the id). -/
noncomputable def resolve (atoms : List (Atom D)) (l : List D) : List ℕ :=
  l.map fun x => (atoms.map (·.data)).idxOf x

/-- `Exchanger::exchange` (Exchanger.cpp:106-113): `exchangeAtoms` followed by `exchangeGhosts`,
without groups. -/
noncomputable def exchange (slab : Vec) (G : Proc N → Local D) : GState N D :=
  exchangeGhosts (fun q => (exchangeAtoms slab G q).atoms)
    (fun q d => resolve (exchangeAtoms slab G q).atoms ((exchangeAtoms slab G q).send d))

/-! ## Updates -/

variable {V : Type} [AddCommGroup V]

/-- Values stored in a list of slots, one after the other. -/
def setAll (X : ℕ → V) : List (ℕ × V) → ℕ → V
  | [] => X
  | (k, v) :: l => setAll (Function.update X k v) l

/-- Loop for one processor in a direction (Exchanger.cpp:874-886): each position is read when it
is copied. `f` applies the shift. -/
def setLoop (f : V → V) (X : ℕ → V) : List (ℕ × ℕ) → ℕ → V
  | [] => X
  | (m, k) :: l => setLoop f (Function.update X m (f (X k))) l

/-- One transfer of `update` (Exchanger.cpp:834-888): positions of the atoms in the send array
of the source are stored in the atoms of the receive array, shifted by `lat i s`
(`applyShift`). -/
def updateDir (lat : Fin 3 → ℤ → V) (G : GState N D) (d : Dir) (X : Proc N → ℕ → V) :
    Proc N → ℕ → V := fun q =>
  let f := fun x => if shift d q ≠ 0 then x + lat d.1 (shift d q) else x
  if gridFlag N d.1 then
    setAll (X q) (List.zip (G.recv q d) (((G.send (source d q) d).map (X (source d q))).map f))
  else setLoop f (X q) (List.zip (G.recv q d) (G.send q d))

/-- `update` (Exchanger.cpp:821-894). -/
def update (lat : Fin 3 → ℤ → V) (G : GState N D) (X : Proc N → ℕ → V) : Proc N → ℕ → V :=
  dirs.foldl (fun X d => updateDir lat G d X) X

/-- Values added to a list of slots, one after the other (`unpackForce`). -/
def addAll (F : ℕ → V) : List (ℕ × V) → ℕ → V
  | [] => F
  | (k, v) :: l => addAll (Function.update F k (F k + v)) l

/-- Loop for one processor in a direction (Exchanger.cpp:944-949): forces are read when they are
added. -/
def addLoop (F : ℕ → V) : List (ℕ × ℕ) → ℕ → V
  | [] => F
  | (k, m) :: l => addLoop (Function.update F k (F k + F m)) l

/-- One transfer of `reverseUpdate` (Exchanger.cpp:909-955): the forces of the atoms in the
receive array are sent back and added to the atoms of the send array. -/
def reverseDir (G : GState N D) (d : Dir) (F : Proc N → ℕ → V) : Proc N → ℕ → V := fun p =>
  if gridFlag N d.1 then
    addAll (F p) (List.zip (G.send p d) ((G.recv (dest d p) d).map (F (dest d p))))
  else addLoop (F p) (List.zip (G.send p d) (G.recv p d))

/-- `reverseUpdate` (Exchanger.cpp:902-960). -/
def reverseUpdate (G : GState N D) (F : Proc N → ℕ → V) : Proc N → ℕ → V :=
  dirs.reverse.foldl (fun F d => reverseDir G d F) F

end Verif.DdExchange
