import Mathlib.Data.Int.Notation
import Mathlib.Logic.Function.Basic

/-!
# Communication plan, atom array with ghost bits, and excluded-pair mask

Sources: `src/ddMd/communicate/Plan.h`, `src/ddMd/communicate/Plan.cpp`,
`src/ddMd/chemistry/Atom.h`, `src/ddMd/chemistry/Atom.cpp`,
`src/ddMd/chemistry/AtomArray.cpp`, `src/ddMd/chemistry/Mask.h`,
`src/ddMd/chemistry/Mask.cpp`, `src/mcMd/chemistry/Mask.h`, `src/mcMd/chemistry/Mask.cpp`.

`unsigned int` is 32 bits wide.
-/

set_option autoImplicit false

namespace Verif.DdChem

/-! ## Plan -/

/-- Ghost bit masks (Plan.cpp:14). -/
def gMask (i : Fin 3) (j : Fin 2) : BitVec 32 :=
  match i, j with
  | 0, 0 => 0x0001#32 | 0, 1 => 0x0002#32
  | 1, 0 => 0x0004#32 | 1, 1 => 0x0008#32
  | 2, 0 => 0x0010#32 | 2, 1 => 0x0020#32

/-- Exchange bit masks (Plan.cpp:15). -/
def eMask (i : Fin 3) (j : Fin 2) : BitVec 32 :=
  match i, j with
  | 0, 0 => 0x0100#32 | 0, 1 => 0x0200#32
  | 1, 0 => 0x0400#32 | 1, 1 => 0x0800#32
  | 2, 0 => 0x1000#32 | 2, 1 => 0x2000#32

/-- `Plan`, with its only member `flags_` (Plan.h:55-57, 133). -/
structure Plan where
  flags : BitVec 32
deriving DecidableEq

namespace Plan

/-- Constructor (Plan.h:55-57). -/
def new : Plan := ⟨0#32⟩

/-- Plan.h:65-66 -/
def setExchange (p : Plan) (i : Fin 3) (j : Fin 2) : Plan := ⟨p.flags ||| eMask i j⟩
/-- Plan.h:74-75 -/
def clearExchange (p : Plan) (i : Fin 3) (j : Fin 2) : Plan := ⟨p.flags &&& ~~~ (eMask i j)⟩
/-- Plan.h:83-84 -/
def setGhost (p : Plan) (i : Fin 3) (j : Fin 2) : Plan := ⟨p.flags ||| gMask i j⟩
/-- Plan.h:92-93 -/
def clearGhost (p : Plan) (i : Fin 3) (j : Fin 2) : Plan := ⟨p.flags &&& ~~~ (gMask i j)⟩
/-- Plan.h:98-99 -/
def setFlags (_ : Plan) (u : BitVec 32) : Plan := ⟨u⟩
/-- Plan.h:104-105 -/
def clearFlags (_ : Plan) : Plan := ⟨0#32⟩
/-- Plan.h:113-114 -/
def exchange (p : Plan) (i : Fin 3) (j : Fin 2) : Bool := decide (p.flags &&& eMask i j ≠ 0#32)
/-- Plan.h:122-123 -/
def ghost (p : Plan) (i : Fin 3) (j : Fin 2) : Bool := decide (p.flags &&& gMask i j ≠ 0#32)

/-- Calls of a client. -/
inductive Op where
  | setExchange (i : Fin 3) (j : Fin 2)
  | clearExchange (i : Fin 3) (j : Fin 2)
  | setGhost (i : Fin 3) (j : Fin 2)
  | clearGhost (i : Fin 3) (j : Fin 2)
  | clearFlags
  /-- `setFlags(q.flags())`, for any other plan `q`. -/
  | copyFlags (q : Plan)

def step (p : Plan) : Op → Plan
  | .setExchange i j => p.setExchange i j
  | .clearExchange i j => p.clearExchange i j
  | .setGhost i j => p.setGhost i j
  | .clearGhost i j => p.clearGhost i j
  | .clearFlags => p.clearFlags
  | .copyFlags q => p.setFlags q.flags

def run (p : Plan) (ops : List Op) : Plan := ops.foldl step p

/-- The pairs `(i, j)` in the order of the nested loops. -/
def pairs : List (Fin 3 × Fin 2) := [(0, 0), (0, 1), (1, 0), (1, 1), (2, 0), (2, 1)]

def digit (b : Bool) : Char := if b then '1' else '0'

/-- `operator <<` (Plan.cpp:58-81). -/
def write (p : Plan) : List Char :=
  pairs.map (fun d => digit (p.exchange d.1 d.2)) ++ [' ', ' ']
    ++ pairs.map (fun d => digit (p.ghost d.1 d.2))

def isSpace (c : Char) : Bool := c = ' ' || c = '\n' || c = '\t'

/-- `in >> string`: skip white space, take the characters up to the next white
space; returns the word and the rest of the stream. -/
def word (s : List Char) : List Char × List Char :=
  let t := s.dropWhile isSpace
  (t.takeWhile (fun c => !isSpace c), t.dropWhile (fun c => !isSpace c))

/-- Body of the inner loop of the exchange part (Plan.cpp:31-35). A character
beyond the end of the word is taken as NUL, as for `std::string::operator[]` at
position `size()`; positions further behind are undefined behaviour in C++, and
only occur for words of fewer than five characters. -/
def readExchange (w : List Char) (s : Plan × Nat) (d : Fin 3 × Fin 2) : Plan × Nat :=
  let c := w.getD s.2 (Char.ofNat 0)
  ((if c = '1' then s.1.setExchange d.1 d.2
    else if c = '0' then s.1.clearExchange d.1 d.2 else s.1), s.2 + 1)

/-- Body of the inner loop of the ghost part (Plan.cpp:44-48); here the inner loop
does not advance `k`. -/
def readGhost (w : List Char) (k : Nat) (p : Plan) (d : Fin 3 × Fin 2) : Plan :=
  let c := w.getD k (Char.ofNat 0)
  if c = '1' then p.setGhost d.1 d.2
  else if c = '0' then p.clearGhost d.1 d.2 else p

/-- Outer loop of the ghost part (Plan.cpp:42-51): `++k` once per `i`. -/
def readGhosts (w : List Char) (p : Plan) : Plan :=
  ([0, 1, 2] : List (Fin 3)).foldl (fun (s : Plan × Nat) i =>
    (([0, 1] : List (Fin 2)).foldl (fun p j => readGhost w s.2 p (i, j)) s.1, s.2 + 1)) (p, 0) |>.1

/-- `operator >>` (Plan.cpp:22-53). -/
def read (s : List Char) (p : Plan) : Plan :=
  let w1 := word s
  let p1 := (pairs.foldl (readExchange w1.1) (p, 0)).1
  let w2 := word w1.2
  readGhosts w2.1 p1

end Plan

/-! ## Atoms in an `AtomArray` -/

/-- Memory of an `AtomArray`: members of the `Atom` objects (indexed by position in
the array) and the separate arrays of pseudo-members (indexed by `localId_ >> 1`)
(Atom.h:368-399, AtomArray.cpp:56-96). `V`, `M`, `C` are the types of vectors,
masks and contexts. -/
structure Arr (cap : Nat) (V M C : Type) where
  position : Fin cap → V
  typeId : Fin cap → ℤ
  localId : Fin cap → BitVec 32
  force : Fin cap → V
  velocities : Nat → V
  masks : Nat → M
  plans : Nat → Plan
  ids : Nat → ℤ
  groups : Nat → BitVec 32
  contexts : Nat → C

/-- Types and constants the model is parametric in: zero vector, empty mask,
cleared context, and the static flag `hasAtomContext_`. -/
structure Params (V M C : Type) where
  zero : V
  emptyMask : M
  clearedContext : C
  hasContext : Bool

section
variable {cap : Nat} {V M C : Type}

/-- Constructor of `Atom` (Atom.cpp:35-44) and `AtomArray::allocate`
(AtomArray.cpp:56-96). -/
def alloc (k : Params V M C) (cap : Nat) (vel0 : Nat → V) : Arr cap V M C :=
  { position := fun _ => k.zero, typeId := fun _ => -1
    localId := fun i => BitVec.ofNat 32 (i.val <<< 1)
    force := fun _ => k.zero, velocities := vel0, masks := fun _ => k.emptyMask
    plans := fun _ => Plan.new, ids := fun _ => -1, groups := fun _ => 0#32
    contexts := fun _ => k.clearedContext }

namespace Arr

/-- The array index `localId_ >> 1` (Atom.h:514-591). -/
def idx (s : Arr cap V M C) (a : Fin cap) : Nat := (s.localId a >>> 1).toNat

/-- Atom.h:464-468 -/
def isGhost (s : Arr cap V M C) (a : Fin cap) : Bool := decide (s.localId a &&& 1#32 ≠ 0#32)
/-- Atom.h:514-521 -/
def velocity (s : Arr cap V M C) (a : Fin cap) : V := s.velocities (s.idx a)
/-- Atom.h:526-533 -/
def mask (s : Arr cap V M C) (a : Fin cap) : M := s.masks (s.idx a)
/-- Atom.h:538-545 -/
def plan (s : Arr cap V M C) (a : Fin cap) : Plan := s.plans (s.idx a)
/-- Atom.h:550-551 -/
def id (s : Arr cap V M C) (a : Fin cap) : ℤ := s.ids (s.idx a)
/-- Atom.h:584-591 -/
def group (s : Arr cap V M C) (a : Fin cap) : BitVec 32 := s.groups (s.idx a)
/-- Atom.h:562-579 -/
def context (s : Arr cap V M C) (a : Fin cap) : C := s.contexts (s.idx a)

/-- Atom.h:444-453 -/
def setIsGhost (s : Arr cap V M C) (a : Fin cap) (b : Bool) : Arr cap V M C :=
  let l := if b then s.localId a ||| 1#32 else s.localId a &&& ~~~ 1#32
  { s with localId := Function.update s.localId a l }
def setPosition (s : Arr cap V M C) (a : Fin cap) (v : V) : Arr cap V M C :=
  { s with position := Function.update s.position a v }
def setTypeId (s : Arr cap V M C) (a : Fin cap) (v : ℤ) : Arr cap V M C :=
  { s with typeId := Function.update s.typeId a v }
def setForce (s : Arr cap V M C) (a : Fin cap) (v : V) : Arr cap V M C :=
  { s with force := Function.update s.force a v }
def setVelocity (s : Arr cap V M C) (a : Fin cap) (v : V) : Arr cap V M C :=
  { s with velocities := Function.update s.velocities (s.idx a) v }
def setMask (s : Arr cap V M C) (a : Fin cap) (v : M) : Arr cap V M C :=
  { s with masks := Function.update s.masks (s.idx a) v }
def setPlan (s : Arr cap V M C) (a : Fin cap) (v : Plan) : Arr cap V M C :=
  { s with plans := Function.update s.plans (s.idx a) v }
/-- Atom.h:556-557 -/
def setId (s : Arr cap V M C) (a : Fin cap) (v : ℤ) : Arr cap V M C :=
  { s with ids := Function.update s.ids (s.idx a) v }
def setGroup (s : Arr cap V M C) (a : Fin cap) (v : BitVec 32) : Arr cap V M C :=
  { s with groups := Function.update s.groups (s.idx a) v }
def setContext (s : Arr cap V M C) (a : Fin cap) (v : C) : Arr cap V M C :=
  { s with contexts := Function.update s.contexts (s.idx a) v }

/-- `operator =` (Atom.cpp:49-64), member by member in the order of the code. -/
def assign (k : Params V M C) (s : Arr cap V M C) (a b : Fin cap) : Arr cap V M C :=
  let s := s.setPosition a (s.position b)
  let s := s.setTypeId a (s.typeId b)
  let s := s.setForce a (s.force b)
  let s := s.setIsGhost a (s.isGhost b)
  let s := s.setVelocity a (s.velocity b)
  let s := s.setId a (s.id b)
  let s := s.setPlan a (s.plan b)
  let s := s.setGroup a (s.group b)
  let s := if k.hasContext then s.setContext a (s.context b) else s
  s.setMask a (s.mask b)

/-- `clear` (Atom.cpp:69-80). -/
def clear (k : Params V M C) (s : Arr cap V M C) (a : Fin cap) : Arr cap V M C :=
  let s := s.setTypeId a (-1)
  let s := s.setIsGhost a false
  let s := s.setId a (-1)
  let s := s.setPlan a Plan.new
  let s := s.setGroup a 0#32
  let s := if k.hasContext then s.setContext a k.clearedContext else s
  s.setMask a k.emptyMask

/-- `copyLocalGhost` (Atom.cpp:262-271). -/
def copyLocalGhost (k : Params V M C) (s : Arr cap V M C) (a b : Fin cap) : Arr cap V M C :=
  let s := s.setId a (s.id b)
  let s := s.setTypeId a (s.typeId b)
  let s := s.setPlan a ((s.plan a).setFlags (s.plan b).flags)
  let s := s.setPosition a (s.position b)
  if k.hasContext then s.setContext a (s.context b) else s

/-- `copyLocalUpdate` (Atom.cpp:276-277). -/
def copyLocalUpdate (s : Arr cap V M C) (a b : Fin cap) : Arr cap V M C :=
  s.setPosition a (s.position b)

/-- `AtomArray::zeroForces` (AtomArray.cpp:101-108). -/
def zeroForces (k : Params V M C) (s : Arr cap V M C) : Arr cap V M C :=
  { s with force := fun _ => k.zero }

end Arr

/-- Calls of a client. -/
inductive AOp (cap : Nat) (V M C : Type) where
  | setIsGhost (a : Fin cap) (b : Bool)
  | setPosition (a : Fin cap) (v : V)
  | setTypeId (a : Fin cap) (v : ℤ)
  | setForce (a : Fin cap) (v : V)
  | setVelocity (a : Fin cap) (v : V)
  | setMask (a : Fin cap) (v : M)
  | setPlan (a : Fin cap) (v : Plan)
  | setId (a : Fin cap) (v : ℤ)
  | setGroup (a : Fin cap) (v : BitVec 32)
  | setContext (a : Fin cap) (v : C)
  | assign (a b : Fin cap)
  | clear (a : Fin cap)
  | copyLocalGhost (a b : Fin cap)
  | copyLocalUpdate (a b : Fin cap)
  | zeroForces

def Arr.step (k : Params V M C) (s : Arr cap V M C) : AOp cap V M C → Arr cap V M C
  | .setIsGhost a b => s.setIsGhost a b
  | .setPosition a v => s.setPosition a v
  | .setTypeId a v => s.setTypeId a v
  | .setForce a v => s.setForce a v
  | .setVelocity a v => s.setVelocity a v
  | .setMask a v => s.setMask a v
  | .setPlan a v => s.setPlan a v
  | .setId a v => s.setId a v
  | .setGroup a v => s.setGroup a v
  -- `context()` throws when contexts are disabled (Atom.h:564-566)
  | .setContext a v => if k.hasContext then s.setContext a v else s
  | .assign a b => s.assign k a b
  | .clear a => s.clear k a
  | .copyLocalGhost a b => s.copyLocalGhost k a b
  | .copyLocalUpdate a b => s.copyLocalUpdate a b
  | .zeroForces => s.zeroForces k

def Arr.run (k : Params V M C) (s : Arr cap V M C) (ops : List (AOp cap V M C)) : Arr cap V M C :=
  ops.foldl (Arr.step k) s

end

/-! ## Masks -/

/-- `Mask` (ddMd/chemistry/Mask.h:78-86 with `K` = atom ids, mcMd/chemistry/Mask.h:63-75
with `K` = atom addresses). `none` is the null value (-1 or 0). -/
structure Mask (K : Type) where
  slots : Nat → Option K
  size : Nat

/-- `Capacity` (ddMd Mask.h:39, mcMd Mask.h:66). -/
def maskCapacity : Nat := 4

namespace Mask
variable {K : Type} [DecidableEq K]

/-- Constructor and `clear` (ddMd Mask.cpp:20-37, mcMd Mask.cpp:19-36). -/
def empty : Mask K := { slots := fun _ => none, size := 0 }

/-- `isMasked` (ddMd Mask.h:93-99, mcMd Mask.h:84-91). -/
def isMasked (m : Mask K) (k : K) : Bool := (List.range m.size).any (fun i => m.slots i = some k)

/-- `append` (ddMd Mask.cpp:42-52, mcMd Mask.cpp:41-51); the flag is false if it throws. -/
def append (m : Mask K) (k : K) : Mask K × Bool :=
  if m.size ≥ maskCapacity then (m, false)
  else if m.isMasked k then (m, false)
  else ({ slots := Function.update m.slots m.size (some k), size := m.size + 1 }, true)

inductive Op (K : Type) where
  | append (k : K)
  | clear

def step (m : Mask K) : Op K → Mask K × Bool
  | .append k => m.append k
  | .clear => (empty, true)

end Mask

end Verif.DdChem
