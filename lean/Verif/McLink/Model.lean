/-
Links between atoms in mcMd: `Link` (src/mcMd/links/Link.h) and `LinkMaster`
(src/mcMd/links/LinkMaster.h, LinkMaster.cpp).

Links and atoms are given by their indices in the arrays `links_` and `atoms_`;
a pointer is an `Option ℕ`.  `ArraySet` is modelled in `McPool`.  `SSet` and
`ArrayStack` belong to the util library, which is not part of the repository.
Whether `SSet::append` rejects an element that is already in the set is a
parameter `strict` of the model; the order of the elements of an `SSet` after
a removal is not significant.  Notification of observers is omitted.
-/
import Verif.McPool.Props

set_option autoImplicit false

namespace Verif.McLink

open Verif.Cpp
open Verif.Cpp.Out
open Verif.McPool (ASet)

/-- Data members of `Link`, Link.h:79-92; the tag is the index of the link. -/
structure LinkRec where
  a0 : Option ℕ
  a1 : Option ℕ
  typeId : ℤ
  active : Bool
  deriving DecidableEq

/-- `Link::Link` and `Link::clear`, Link.h:138-143, 220-226. -/
def LinkRec.clear : LinkRec := ⟨none, none, -1, false⟩

/-- `Link::setAtoms`, Link.h:148-154: nothing is done if the atoms are equal. -/
def LinkRec.setAtoms (l : LinkRec) (a b : ℕ) : LinkRec :=
  if a ≠ b then { l with a0 := some a, a1 := some b } else l

/-- Dereferencing a pointer to an atom. -/
def deref : Option ℕ → Out ℕ
  | none => ub
  | some a => ok a

/-- Data members of `LinkMaster`, LinkMaster.h:177-212. -/
structure LM where
  cap : ℕ
  atomCap : ℕ
  link : ℕ → LinkRec
  set : ASet
  /-- `reservoir_`, the top of the stack first -/
  res : List ℕ
  /-- `atomLinkSets_[a]` -/
  ofAtom : ℕ → List ℕ

abbrev LM.setLink (p : LM) (i : ℕ) (l : LinkRec) : LM :=
  { p with link := Function.update p.link i l }

abbrev LM.setOf (p : LM) (a : ℕ) (l : List ℕ) : LM :=
  { p with ofAtom := Function.update p.ofAtom a l }

/-- The capacity of `AtomLinkSet`, LinkMaster.h:57. -/
def atomLinkCapacity : ℕ := 400

/-- `atomLinkSets_[a].append(link)`. -/
def attach (strict : Bool) (i a : ℕ) (p : LM) : Out LM := do
  require (a < p.atomCap)
  check (strict = false ∨ i ∉ p.ofAtom a)
  check ((p.ofAtom a).length < atomLinkCapacity)
  ok (p.setOf a (p.ofAtom a ++ [i]))

/-- `atomLinkSets_[a].isElement(link)`, with the exception that follows if it
is false. -/
def checkIn (i a : ℕ) (p : LM) : Out Unit := do
  require (a < p.atomCap)
  check (i ∈ p.ofAtom a)

/-- `atomLinkSets_[a].remove(link)`, which throws if the link is not there. -/
def detach (i a : ℕ) (p : LM) : Out LM := do
  require (a < p.atomCap)
  check (i ∈ p.ofAtom a)
  ok (p.setOf a ((p.ofAtom a).erase i))

/-- The body of `addLink` once a link `i` was popped, LinkMaster.cpp:60-69. -/
def initLink (strict : Bool) (i a b : ℕ) (t : ℤ) (l : List ℕ) (p : LM) : Out LM := do
  let s ← p.set.append p.cap i
  let p1 : LM := { p with res := l, set := s }
  let p2 := p1.setLink i { (p1.link i).setAtoms a b with typeId := t, active := true }
  let p3 ← attach strict i a p2
  attach strict i b p3

/-- `ArrayStack::pop`, which throws if the stack is empty. -/
def pop : List ℕ → Out (ℕ × List ℕ)
  | [] => Out.throw
  | i :: l => ok (i, l)

/-- `LinkMaster::addLink`, LinkMaster.cpp:40-74. -/
def addLink (strict : Bool) (a b : ℕ) (t : ℤ) (p : LM) : Out LM := do
  check (a < p.atomCap)
  check (b < p.atomCap)
  let (i, l) ← pop p.res
  initLink strict i a b t l p

/-- `LinkMaster::link`, LinkMaster.h:255-256, with the assertion of
`ArraySet::operator []`. -/
def linkAt (p : LM) (id : ℕ) : Out ℕ :=
  match p.set.elems[id]? with
  | none => ub
  | some i => ok i

/-- `LinkMaster::removeLink`, LinkMaster.cpp:80-117; `push` throws if the stack
is full. -/
def removeLink (id : ℕ) (p : LM) : Out LM := do
  let i ← linkAt p id
  check ((p.link i).active = true)
  let a ← deref (p.link i).a0
  let b ← deref (p.link i).a1
  checkIn i a p
  checkIn i b p
  let p1 ← detach i a p
  let p2 ← detach i b p1
  let p3 := p2.setLink i LinkRec.clear
  let s ← p3.set.remove p3.cap i
  check (p3.res.length < p3.cap)
  ok { p3 with set := s, res := i :: p3.res }

/-- `LinkMaster::reSetAtoms`, LinkMaster.cpp:122-162, for the link `i`.  The
pointers to the old atoms are dereferenced before the link is checked. -/
def reSetAtoms (strict : Bool) (i a b : ℕ) (p : LM) : Out LM := do
  let x ← deref (p.link i).a0
  let y ← deref (p.link i).a1
  check ((p.link i).active = true)
  check (a < p.atomCap)
  check (b < p.atomCap)
  checkIn i x p
  checkIn i y p
  let p1 ← detach i x p
  let p2 ← detach i y p1
  let p3 := p2.setLink i ((p2.link i).setAtoms a b)
  let p4 ← attach strict i a p3
  attach strict i b p4

/-- The old atom at one end, LinkMaster.cpp:172-177. -/
def oldEnd (l : LinkRec) (first : Bool) : Option ℕ := if first then l.a0 else l.a1

/-- Assignment of the new atom, LinkMaster.cpp:197-202. -/
def setEnd (l : LinkRec) (first : Bool) (a other : ℕ) : LinkRec :=
  if first then l.setAtoms a other else l.setAtoms other a

/-- `LinkMaster::reSetAtom`, LinkMaster.cpp:167-208; `first` is `endId == 0`. -/
def reSetAtom (strict : Bool) (i a : ℕ) (first : Bool) (p : LM) : Out LM := do
  let x ← deref (oldEnd (p.link i) first)
  check ((p.link i).active = true)
  check (a < p.atomCap)
  checkIn i x p
  let p1 ← detach i x p
  let y ← deref (oldEnd (p1.link i) (!first))
  let p2 := p1.setLink i (setEnd (p1.link i) first a y)
  attach strict i a p2

/-- `LinkMaster::allocate`, LinkMaster.cpp:227-250: the stack is filled in order
of decreasing index. -/
def init (cap atomCap : ℕ) : LM :=
  ⟨cap, atomCap, fun _ => LinkRec.clear, ASet.empty, List.range cap, fun _ => []⟩

/-- `LinkMaster::nLink`. -/
def nLink (p : LM) : ℕ := p.set.elems.length

/-- `LinkMaster::clear`, LinkMaster.cpp:325-330. -/
def clear (p : LM) : Out LM :=
  loop (fun q j => removeLink (nLink p - 1 - j) q) (List.range (nLink p)) p

/-- Body of the loop over active links in `isValid`, LinkMaster.cpp:271-303. -/
def validLink (p : LM) (i : ℕ) : Out Unit := do
  check ((p.link i).a0 ≠ none ∧ (p.link i).a1 ≠ none)
  check ((p.link i).a0 ≠ (p.link i).a1)
  check ((p.link i).active = true)
  let a ← deref (p.link i).a0
  let b ← deref (p.link i).a1
  checkIn i a p
  checkIn i b p

/-- `LinkMaster::isValid`, LinkMaster.cpp:255-326 (links allocated; the
capacities of the two containers are equal by construction). -/
def isValid (p : LM) : Out Unit := do
  check (p.cap = p.res.length + p.set.elems.length)
  loop (fun _ i => validLink p i) p.set.elems ()
  check ((List.range p.cap).countP (fun i => (p.link i).active) = p.set.elems.length)
  check (((List.range p.atomCap).map fun a => (p.ofAtom a).length).sum = 2 * p.set.elems.length)

end Verif.McLink
