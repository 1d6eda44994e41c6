/-
Identification of clusters of molecules: `ClusterLink` and `Cluster`
(src/mcMd/analyzers/system/ClusterLink.h, Cluster.cpp) and `ClusterIdentifier`
(src/mcMd/analyzers/system/ClusterIdentifier.cpp).

Molecules of the species are given by their index `id()`, which is also the
index of their link; atoms are given by an index.  The cell list enters as a
function `near` (see `McCellList`), the test `distanceSq < cutoffSq` as `close`.
`GArray` and `GStack` belong to the util library, which is not part of the
repository: `GArray::resize` initialises the added elements with the default
constructor.
-/
import Verif.Cpp.Outcome
import Mathlib.Logic.Function.Basic

set_option autoImplicit false

namespace Verif.Cluster

open Verif.Cpp
open Verif.Cpp.Out

/-- Data members of `ClusterLink`, ClusterLink.h:46-58; the molecule of link `i`
is molecule `i`, or null. -/
structure Link where
  mol : Bool
  next : Option ℕ
  /-- `clusterId_`; `none` is -1 -/
  cid : Option ℕ
  deriving DecidableEq

/-- `ClusterLink::clear`, ClusterLink.h:64-69. -/
def Link.null : Link := ⟨false, none, none⟩

/-- Data members of `Cluster`, Cluster.h:92-99. -/
structure Clus where
  id : ℕ
  size : ℕ
  head : Option ℕ
  deriving DecidableEq

/-- The molecules of the species and what the program can find out about
them. -/
structure World where
  /-- capacity of the species -/
  cap : ℕ
  /-- molecules of the system, in the order of the iterator -/
  mols : List ℕ
  /-- atoms of each molecule -/
  atoms : ℕ → List ℕ
  /-- `atom.typeId() == atomTypeId_` -/
  typed : ℕ → Bool
  /-- `atom.molecule().id()` -/
  molOf : ℕ → ℕ
  /-- `cellList_.getNeighbors(atom.position())` -/
  near : ℕ → List ℕ
  /-- `boundary.distanceSq(…) < cutoffSq` -/
  close : ℕ → ℕ → Bool

/-- Links, and the cluster that is being filled with the stack of molecules to
be processed (top first). -/
structure State where
  links : ℕ → Link
  clus : Clus
  stack : List ℕ

/-- `Cluster::addLink`, Cluster.cpp:57-63, and `workStack_.push`. -/
def State.add (s : State) (i : ℕ) : State where
  links := Function.update s.links i
    { s.links i with cid := some s.clus.id, next := s.clus.head }
  clus := ⟨s.clus.id, s.clus.size + 1, some i⟩
  stack := i :: s.stack

/-- A molecule of index `j` found within the cutoff,
ClusterIdentifier.cpp:102-114. -/
def visit (w : World) (s : State) (j : ℕ) : Out State :=
  if j < w.cap ∧ (s.links j).mol = true then
    match (s.links j).cid with
    | none => ok (s.add j)
    | some c => if c = s.clus.id then ok s else Out.throw
  else ub

/-- Body of the loop over neighbours, ClusterIdentifier.cpp:96-116. -/
def neighborStep (w : World) (m a : ℕ) (s : State) (b : ℕ) : Out State :=
  if w.molOf b ≠ m ∧ w.close a b = true then visit w s (w.molOf b) else ok s

/-- Body of the loop over atoms, ClusterIdentifier.cpp:92-118. -/
def atomStep (w : World) (m : ℕ) (s : State) (a : ℕ) : Out State :=
  if w.typed a = true then loop (neighborStep w m a) (w.near a) s else ok s

/-- `processNextMolecule`, ClusterIdentifier.cpp:66-120, once molecule `m` was
popped; `s.stack` is the rest of the stack. -/
def process (w : World) (s : State) (m : ℕ) : Out State := do
  require ((s.links m).mol = true)
  check ((s.links m).cid = some s.clus.id)
  loop (atomStep w m) (w.atoms m) s

/-- The loop `while (workStack_.size() > 0)`, ClusterIdentifier.cpp:176-178,
with a bound on the number of iterations; `none` if the bound is reached. -/
def flood (w : World) : ℕ → State → Option (Out State)
  | 0, s => if s.stack = [] then some (ok s) else none
  | n + 1, s =>
    match s.stack with
    | [] => some (ok s)
    | m :: rest =>
      match process w { s with stack := rest } m with
      | .ok s' => flood w n s'
      | .throw => some Out.throw
      | .ub => some ub

/-- Result of identification. -/
structure Result where
  links : ℕ → Link
  clusters : List Clus

/-- Body of the loop over molecules, ClusterIdentifier.cpp:157-182. -/
def molStep (w : World) (n : ℕ) (r : Result) (m : ℕ) : Option (Out Result) :=
  if (r.links m).mol = true then
    if (r.links m).cid = none then
      match flood w n (State.add ⟨r.links, ⟨r.clusters.length, 0, none⟩, []⟩ m) with
      | none => none
      | some (.ok s) => some (ok ⟨s.links, r.clusters ++ [s.clus]⟩)
      | some .throw => some Out.throw
      | some .ub => some ub
    else some (ok r)
  else some ub

/-- The loop over molecules. -/
def molLoop (w : World) (n : ℕ) : List ℕ → Result → Option (Out Result)
  | [], r => some (ok r)
  | m :: l, r =>
    match molStep w n r m with
    | some (.ok r') => molLoop w n l r'
    | x => x

/-- Links after they were cleared and associated with molecules,
ClusterIdentifier.cpp:128-155. -/
def initLinks (w : World) : ℕ → Link := fun i => { Link.null with mol := decide (i ∈ w.mols) }

/-- Molecules in the linked list that starts at a link, up to a bound. -/
def walk (links : ℕ → Link) : ℕ → Option ℕ → List ℕ
  | 0, _ => []
  | _ + 1, none => []
  | n + 1, some i => i :: walk links n (links i).next

/-- `ClusterIdentifier::identifyClusters`, ClusterIdentifier.cpp:125-186,
without the final `isValid`. -/
def identify (w : World) (n : ℕ) : Option (Out Result) := molLoop w n w.mols ⟨initLinks w, []⟩

/-- Number of links in the list of a cluster if all of them carry its id,
Cluster.cpp:65-81; `none` stands for false.  The walk is bounded. -/
def clusterCount (links : ℕ → Link) (c : Clus) : ℕ → Option ℕ → Option ℕ
  | _, none => some 0
  | 0, some _ => none
  | n + 1, some i =>
    if (links i).cid = some c.id then (clusterCount links c n (links i).next).map (· + 1) else none

/-- `ClusterIdentifier::isValid`, ClusterIdentifier.cpp:188-221. -/
def isValid (w : World) (r : Result) (n : ℕ) : Out Unit := do
  check (∀ c ∈ r.clusters, clusterCount r.links c n c.head = some c.size)
  check ((r.clusters.map Clus.size).sum = w.mols.length)
  loop (fun _ m => check ((r.links m).mol = true ∧ (r.links m).cid ≠ none)) w.mols ()

end Verif.Cluster
