import Mathlib.Data.List.Basic
import Mathlib.Data.Nat.Notation
import Mathlib.Data.Int.Notation

/-!
# Distribution and collection of atoms and groups

Sources: `src/ddMd/communicate/AtomDistributor.{h,cpp}`, `AtomCollector.{h,cpp}`,
`GroupDistributor.{h,tpp}`, `GroupCollector.{h,tpp}`.

Simplified throughout: an atom is a value of an arbitrary type `A`; a storage is the list of the
values it holds, with a capacity (`AtomStorage` and `GroupStorage` themselves are modelled in
`Verif.DdAtomStorage` and `Verif.DdGroup`); a message is the list of values it carries and the
completion flag (the bytes are modelled in `Verif.DdBuffer`), and packing throws when the number
of values reaches the capacity for which the buffer was allocated. Tests of association and
initialization at the start of each function are left out; they do not change.
-/

set_option autoImplicit false

namespace Verif.DdDistribute

/-- Ways in which a function does not return: an exception, a failed assertion, or waiting for a
message that is never sent. -/
inductive Err where
  | throw
  | assert
  | stuck
  deriving DecidableEq, Repr

/-- Content of a message. -/
structure Msg (A : Type) where
  items : List A
  complete : Bool
  deriving Repr

/-! ## AtomDistributor -/

/-- State of the distributor on the master (AtomDistributor.h:246-318). The row `sendArrays_(r, ·)`
with its used length `sendSizes_[r]` is the list `arr r` of cache slots; the reservoir is a stack
with its top first. `store` is the `AtomStorage` of the master, `buf` the block under
construction in the send buffer and `events` the messages sent so far with their destinations. -/
structure Dist (A : Type) where
  size : ℕ
  cacheCap : ℕ
  sendCap : ℕ
  storeCap : ℕ
  cache : ℕ → A
  res : List ℕ
  arr : ℕ → List ℕ
  newPtr : Option ℕ
  rankMax : ℕ
  nCached : ℕ
  nSent : ℕ
  store : List A
  buf : List A
  events : List (ℕ × Msg A)

variable {A : Type}

/-- `AtomDistributor::allocate` (AtomDistributor.cpp:87-140) after the constructor (28-45).
`cap` is the parameter `cacheCapacity`, `sendCap` is `Buffer::atomCapacity()`. The slots are pushed
in reverse order, so slot 0 is on top. -/
def allocate (size : ℕ) (cap : ℤ) (sendCap storeCap : ℕ) (cache : ℕ → A) (store : List A) :
    Dist A :=
  let cacheCap := if cap ≤ 0 then size * sendCap else cap.toNat
  { size := size, cacheCap := cacheCap, sendCap := sendCap, storeCap := storeCap, cache := cache
    res := List.range cacheCap, arr := fun _ => [], newPtr := none, rankMax := 0
    nCached := 0, nSent := 0, store := store, buf := [], events := [] }

/-- `AtomDistributor::setup` (AtomDistributor.cpp:146-186) once allocated. -/
def setup (s : Dist A) : Except Err (Dist A) :=
  if s.res.length ≠ s.cacheCap then .error .throw
  else if ∃ r ∈ List.range s.size, s.arr r ≠ [] then .error .throw
  else .ok { s with buf := [], nCached := 0, nSent := 0 }

/-- The packing loops (AtomDistributor.cpp:229-236, 333-341, 404-410): pack each slot and return it
to the reservoir. `packAtom` throws when the buffer is full, `push` when the stack is full. -/
def flushLoop : List ℕ → Dist A → Except Err (Dist A)
  | [], s => .ok s
  | k :: ks, s =>
    if s.buf.length ≥ s.sendCap then .error .throw
    else if s.res.length ≥ s.cacheCap then .error .throw
    else flushLoop ks { s with buf := s.buf ++ [s.cache k], res := k :: s.res }

/-- `endSendBlock`, `Buffer::send` (Buffer.cpp:364-388, which rejects the own rank and ranks out of
bounds), `clearSendBuffer` and `beginSendBlock`. -/
def sendBuf (r : ℕ) (complete : Bool) (s : Dist A) : Except Err (Dist A) :=
  if r = 0 ∨ r ≥ s.size then .error .throw
  else .ok { s with events := s.events ++ [(r, ⟨s.buf, complete⟩)], buf := [] }

/-- `newAtomPtr` (AtomDistributor.cpp:191-259). `blank` is the content after `Atom::clear`. -/
def newAtomPtr (blank : A) (s : Dist A) : Except Err (Dist A) :=
  if s.newPtr ≠ none then .error .throw
  else
    let flushed : Except Err (Dist A) :=
      if s.res = [] then
        let rank := s.rankMax
        let size := (s.arr rank).length
        let nSend := min size s.sendCap
        let start := size - nSend
        (flushLoop ((s.arr rank).drop start) s).bind fun s =>
          sendBuf rank false
            { s with nSent := s.nSent + size
                     arr := Function.update s.arr rank ((s.arr rank).take start) }
      else .ok s
    flushed.bind fun s =>
      match s.res with
      | [] => .error .throw
      | k :: ks =>
        .ok { s with res := ks, newPtr := some k, cache := Function.update s.cache k blank }

/-- The user sets the content of the new atom through the pointer. -/
def setNew (x : A) (s : Dist A) : Dist A :=
  match s.newPtr with
  | none => s
  | some k => { s with cache := Function.update s.cache k x }

/-- `addAtom` (AtomDistributor.cpp:264-374). `shift` is `Boundary::shiftGen` applied to the
position and `owner` is `Domain::ownerRank`, `none` if that throws. An owner beyond the grid would
be outside the arrays (`assert`). Returns the owner. -/
def addAtom (shift : A → A) (owner : A → Option ℕ) (s : Dist A) : Except Err (Dist A × ℕ) :=
  match s.newPtr with
  | none => .error .throw
  | some k =>
    let s := { s with cache := Function.update s.cache k (shift (s.cache k)) }
    match owner (s.cache k) with
    | none => .error .throw
    | some rank =>
      if rank = 0 then
        if s.store.length ≥ s.storeCap then .error .throw
        else if s.res.length ≥ s.cacheCap then .error .throw
        else .ok ({ s with store := s.store ++ [s.cache k], res := k :: s.res, newPtr := none }, 0)
      else if rank ≥ s.size then .error .assert
      else if (s.arr rank).length ≥ s.sendCap then .error .assert
      else
        let arr := Function.update s.arr rank (s.arr rank ++ [k])
        let rankMax :=
          if rank ≠ s.rankMax then
            if (arr rank).length > (arr s.rankMax).length then rank else s.rankMax
          else s.rankMax
        let s := { s with arr := arr, nCached := s.nCached + 1, rankMax := rankMax }
        let sent : Except Err (Dist A) :=
          if (s.arr rank).length = s.sendCap then
            (flushLoop (s.arr rank) s).bind fun s =>
              sendBuf rank false { s with nSent := s.nSent + s.sendCap
                                          arr := Function.update s.arr rank [] }
          else .ok s
        sent.bind fun s => .ok ({ s with newPtr := none }, rank)

/-- The loop of `send` (AtomDistributor.cpp:399-429) over the ranks in the list. -/
def sendLoop : List ℕ → Dist A → Except Err (Dist A)
  | [], s => .ok s
  | i :: is, s =>
    (flushLoop (s.arr i) s).bind fun t =>
      (sendBuf i true { t with nSent := t.nSent + (t.arr i).length }).bind fun t =>
        sendLoop is { t with arr := Function.update t.arr i [] }

/-- `send` up to the reduction (AtomDistributor.cpp:376-429). -/
def send (s : Dist A) : Except Err (Dist A) :=
  if s.newPtr ≠ none then .error .throw
  else sendLoop (List.range' 1 (s.size - 1)) s

/-- The tests at the end of `send` (AtomDistributor.cpp:436-445); `total` is the result of the
reduction over all processors. -/
def checkSent (total : ℕ) (s : Dist A) : Except Err Unit :=
  if s.res.length ≠ s.cacheCap then .error .throw
  else if s.nCached ≠ s.nSent then .error .throw
  else if total ≠ s.nSent + s.store.length then .error .throw
  else .ok ()

/-- Inner loop of `receive` (AtomDistributor.cpp:479-486): store each atom, then compare its owner
with the own rank. -/
def receiveItems (owner : A → Option ℕ) (rank cap : ℕ) : List A → List A → Except Err (List A)
  | [], store => .ok store
  | x :: xs, store =>
    if store.length ≥ cap then .error .throw
    else if owner x ≠ some rank then .error .throw
    else receiveItems owner rank cap xs (store ++ [x])

/-- `receive` (AtomDistributor.cpp:455-495) on the queue of messages from the master: the storage
and the messages left over. -/
def receive (owner : A → Option ℕ) (rank cap : ℕ) :
    List (Msg A) → List A → Except Err (List A × List (Msg A))
  | [], _ => .error .stuck
  | m :: ms, store =>
    (receiveItems owner rank cap m.items store).bind fun store =>
      if m.complete then .ok (store, ms) else receive owner rank cap ms store

/-- The master reads the atoms `xs` one by one, as done by the `ConfigIo` classes
(for instance DdMdConfigIo.cpp, SerializeConfigIo.cpp): pointer, content, add. -/
def addAll (blank : A) (shift : A → A) (owner : A → Option ℕ) :
    List A → Dist A → Except Err (Dist A)
  | [], s => .ok s
  | x :: xs, s =>
    (newAtomPtr blank s).bind fun s =>
      (addAtom shift owner (setNew x s)).bind fun s => addAll blank shift owner xs s.1

/-- Messages sent to rank `r`. -/
def queueOf (r : ℕ) (ev : List (ℕ × Msg A)) : List (Msg A) :=
  (ev.filter fun e => e.1 = r).map Prod.snd

/-- The master's part of a distribution: `setup`, all atoms, `send` up to the reduction. -/
def distribute (blank : A) (shift : A → A) (owner : A → Option ℕ) (xs : List A) (s : Dist A) :
    Except Err (Dist A) :=
  (setup s).bind fun s => (addAll blank shift owner xs s).bind send

/-! ## AtomCollector and GroupCollector -/

/-- State of a sending processor in `send` (AtomCollector.cpp:211-250, GroupCollector.tpp:231-279):
the part of the storage that the iterator has not reached and `isComplete_`. -/
structure Sender (A : Type) where
  rest : List A
  done : Bool

/-- The packing loop (AtomCollector.cpp:236-241, GroupCollector.tpp:258-270), `n` items being
packed; result: packed items, remaining items. `keep` tells whether the item is sent: always for
an atom, and for a group if its first atom is present and local. -/
def packLoop (keep : A → Bool) (cap : ℕ) : ℕ → List A → List A × List A
  | _, [] => ([], [])
  | n, x :: xs =>
    if n < cap then
      if keep x then
        let r := packLoop keep cap (n + 1) xs
        (x :: r.1, r.2)
      else packLoop keep cap n xs
    else ([], x :: xs)

/-- One iteration of the loop in `send`, on a request. A processor that has completed does not
answer. -/
def Sender.answer (keep : A → Bool) (cap : ℕ) (s : Sender A) : Except Err (Sender A × Msg A) :=
  if s.done then .error .stuck
  else
    let r := packLoop keep cap 0 s.rest
    .ok ({ rest := r.2, done := r.2.isEmpty }, ⟨r.1, r.2.isEmpty⟩)

/-- State of the collection: the collector on the master (AtomCollector.h:95-140), the receive
buffer `recv` of the master, the rest of the master's storage `iter`, and the other processors. -/
structure Coll (A : Type) where
  size : ℕ
  bufCap : ℕ
  arrayCap : ℕ
  source : ℕ
  bufferSize : ℕ
  array : ℕ → A
  arraySize : ℕ
  arrayId : ℕ
  complete : Bool
  iter : List A
  recv : List A
  senders : ℕ → Sender A

/-- `setup` (AtomCollector.cpp:66-99, GroupCollector.tpp:73-102). -/
def Coll.setup (c : Coll A) (local_ : List A) : Coll A :=
  { c with source := 0, bufferSize := 0, arraySize := 0, arrayId := 0, complete := false
           iter := local_ }

/-- The loop over the items of the master (AtomCollector.cpp:124-135, GroupCollector.tpp:126-146):
either an item to return, or the end of the list. -/
def nextLocal (keep : A → Bool) : List A → Option (A × List A)
  | [] => none
  | x :: xs => if keep x then some (x, xs) else nextLocal keep xs

/-- Unpacking into the array (AtomCollector.cpp:175-184, GroupCollector.tpp:179-188): at most
`arrayCap` items; throws if the counters disagree. -/
def unpackLoop (c : Coll A) : List A → Except Err (Coll A)
  | [] => .ok { c with recv := [] }
  | x :: xs =>
    if c.arraySize < c.arrayCap then
      if c.bufferSize - 1 ≠ xs.length then .error .throw
      else unpackLoop { c with array := Function.update c.array c.arraySize x
                               arraySize := c.arraySize + 1, bufferSize := c.bufferSize - 1 } xs
    else .ok { c with recv := x :: xs }

/-- The loop of `nextPtr` (AtomCollector.cpp:138-192, GroupCollector.tpp:149-190). The first
argument bounds the number of iterations; the theorems show that a bound exists beyond which the
result does not depend on it. Result `none` is the null pointer. `Buffer::recv` throws for the own
rank and `beginRecvBlock` if items of the previous block are unread. -/
def collectLoop (keep : A → Bool) : ℕ → Coll A → Except Err (Coll A × Option A)
  | 0, _ => .error .stuck
  | n + 1, c =>
    if c.arrayId = c.arraySize then
      let refilled : Except Err (Coll A × Bool) :=
        if c.bufferSize = 0 then
          if c.complete = true ∧ c.source + 1 = c.size then
            .ok ({ c with source := 0, arraySize := 0, arrayId := 0, complete := false }, true)
          else
            let c := if c.complete then
                { c with source := c.source + 1, arraySize := 0, arrayId := 0, complete := false }
              else c
            if c.source = 0 ∨ c.recv ≠ [] then .error .throw
            else
              ((c.senders c.source).answer keep c.bufCap).bind fun r =>
                .ok ({ c with senders := Function.update c.senders c.source r.1
                              recv := r.2.items, complete := r.2.complete
                              bufferSize := r.2.items.length }, false)
        else .ok (c, false)
      refilled.bind fun r =>
        if r.2 then .ok (r.1, none)
        else if r.1.bufferSize > 0 then
          if r.1.bufferSize ≠ r.1.recv.length then .error .throw
          else (unpackLoop { r.1 with arraySize := 0, arrayId := 0 } r.1.recv).bind
            (collectLoop keep n)
        else collectLoop keep n r.1
    else .ok ({ c with arrayId := c.arrayId + 1 }, some (c.array c.arrayId))

/-- `nextPtr` (AtomCollector.cpp:106-198, GroupCollector.tpp:110-196). The size of the
receive buffer is the number of unread items. -/
def nextPtr (keep : A → Bool) (fuel : ℕ) (c : Coll A) : Except Err (Coll A × Option A) :=
  if c.source = 0 then
    match nextLocal keep c.iter with
    | some (x, xs) => .ok ({ c with iter := xs }, some x)
    | none => collectLoop keep fuel
        { c with iter := [], bufferSize := 0, arraySize := 0, arrayId := 0, complete := true }
  else collectLoop keep fuel c

/-- The loop of the callers (for instance DdMdConfigIo.cpp, `atomPtr = collector.nextPtr(); while
(atomPtr) {...}`): all items up to the null pointer, at most `n` of them. -/
def collectAll (keep : A → Bool) (fuel : ℕ) : ℕ → Coll A → Except Err (Coll A × List A)
  | 0, _ => .error .stuck
  | n + 1, c =>
    (nextPtr keep fuel c).bind fun r =>
      match r.2 with
      | none => .ok (r.1, [])
      | some x => (collectAll keep fuel n r.1).bind fun q => .ok (q.1, x :: q.2)

/-! ## GroupDistributor -/

/-- State of the distributor of groups on the master (GroupDistributor.h:170-230). `bufCap` is the
number of groups for which the buffer has room; `cache` itself is not modelled beyond the one slot
in use, because a group is packed as soon as it is added. `casts` are the broadcasts so far. -/
structure GDist (G : Type) where
  cacheCap : ℕ
  bufCap : ℕ
  storeCap : ℕ
  new : Option G
  cacheSize : ℕ
  nSent : ℕ
  nAtomRecv : ℕ
  store : List G
  buf : List G
  casts : List (Msg G)

variable {G : Type}

/-- `setup` (GroupDistributor.tpp:88-104). -/
def GDist.setup (s : GDist G) : GDist G := { s with buf := [], nAtomRecv := 0, new := none }

/-- `newPtr` (GroupDistributor.tpp:109-149), the user then writing the group `g`. -/
def GDist.newPtr (g : G) (s : GDist G) : Except Err (GDist G) :=
  if s.new.isSome then .error .throw
  else if s.cacheSize = s.cacheCap then
    .ok { s with casts := s.casts ++ [⟨s.buf, false⟩], nSent := s.nSent + s.cacheSize
                 buf := [], cacheSize := 0, new := some g }
  else .ok { s with new := some g }

/-- `add` (GroupDistributor.tpp:154-200). `nLocal g` is the result of `findGroupLocalAtoms` on the
master. -/
def GDist.add (nLocal : G → ℕ) (s : GDist G) : Except Err (GDist G) :=
  match s.new with
  | none => .error .throw
  | some g =>
    if nLocal g > 0 ∧ s.store.length ≥ s.storeCap then .error .throw
    else if s.buf.length ≥ s.bufCap then .error .throw
    else
      let s := if nLocal g > 0 then
          { s with store := s.store ++ [g], nAtomRecv := s.nAtomRecv + nLocal g }
        else s
      .ok { s with buf := s.buf ++ [g], new := none, cacheSize := s.cacheSize + 1 }

/-- `send` up to `validate` (GroupDistributor.tpp:207-242). -/
def GDist.send (s : GDist G) : Except Err (GDist G) :=
  if s.new.isSome then .error .throw
  else .ok { s with casts := s.casts ++ [⟨s.buf, true⟩], nSent := s.nSent + s.cacheSize
                    buf := [] }

/-- All groups in order. -/
def GDist.addAll (nLocal : G → ℕ) : List G → GDist G → Except Err (GDist G)
  | [], s => .ok s
  | g :: gs, s => (s.newPtr g).bind fun s => (s.add nLocal).bind (GDist.addAll nLocal gs)

/-- The loop over the items of a broadcast in `receive` (GroupDistributor.tpp:305-317): every group
is unpacked into a new slot, which is kept if a local atom belongs to the group and returned
otherwise. State: storage and `nAtomRecv_`. -/
def receiveGroupItems (nLocal : G → ℕ) (cap : ℕ) : List G → List G × ℕ → Except Err (List G × ℕ)
  | [], s => .ok s
  | g :: gs, s =>
    if s.1.length ≥ cap then .error .throw
    else if nLocal g > 0 then receiveGroupItems nLocal cap gs (s.1 ++ [g], s.2 + nLocal g)
    else receiveGroupItems nLocal cap gs s

/-- `receive` (GroupDistributor.tpp:265-331) up to `validate`. -/
def receiveGroups (nLocal : G → ℕ) (cap : ℕ) :
    List (Msg G) → List G × ℕ → Except Err ((List G × ℕ) × List (Msg G))
  | [], _ => .error .stuck
  | m :: ms, s =>
    (receiveGroupItems nLocal cap m.items s).bind fun s =>
      if m.complete then .ok (s, ms) else receiveGroups nLocal cap ms s

/-- `validate` (GroupDistributor.tpp:337-350) and the comparison of `nTotal` with `nSentTotal_`
(246-248): `recvTotal` and `nTotal` are results of reductions. -/
def GDist.check (N recvTotal nTotal : ℕ) (s : GDist G) : Except Err Unit :=
  if recvTotal ≠ s.nSent * N then .error .throw
  else if nTotal ≠ s.nSent then .error .throw
  else .ok ()

end Verif.DdDistribute
