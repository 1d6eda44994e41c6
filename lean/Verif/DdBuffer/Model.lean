import Mathlib.Data.Int.Notation
import Mathlib.Logic.Function.Basic

/-!
# Message buffer of the domain-decomposed program

Sources: `src/ddMd/communicate/Buffer.h`, `src/ddMd/communicate/Buffer.cpp`,
pack/unpack functions of `src/ddMd/chemistry/Atom.cpp` and `src/ddMd/chemistry/Group.h`.

Memory is a function from addresses to bytes; address 0 is the begin of the
allocated buffer, and addresses `≥ cap` are other memory of the process. A value of a
plain C type is the list of its bytes (`pack` and `unpack` copy bitwise); `int` and
`unsigned int` are 4 bytes, little endian, `Vector` is 24 bytes.
-/

set_option autoImplicit false

namespace Verif.DdBuffer

abbrev Byte := BitVec 8
/-- `int` and `unsigned int`. -/
abbrev I32 := BitVec 32

/-- Outcome of a call: value, exception, or use of a null pointer. -/
inductive Res (α : Type) where
  | ok (a : α)
  | throw
  | null

/-- Sequencing: an exception ends the computation. -/
def Res.bind {α β : Type} (x : Res α) (f : α → Res β) : Res β :=
  match x with
  | .ok a => f a
  | .throw => .throw
  | .null => .null

/-- Bytes of an `int`. -/
def encInt (x : I32) : List Byte :=
  [x.extractLsb' 0 8, x.extractLsb' 8 8, x.extractLsb' 16 8, x.extractLsb' 24 8]

def decInt : List Byte → I32
  | [a, b, c, d] => d ++ c ++ b ++ a
  | _ => 0#32

/-- Memory after storing `bs` at address `p`. -/
def store (mem : Nat → Byte) (p : Nat) (bs : List Byte) : Nat → Byte :=
  fun k => if p ≤ k ∧ k < p + bs.length then bs.getD (k - p) 0#8 else mem k

/-- The `n` bytes at address `p`. -/
def load (mem : Nat → Byte) (p n : Nat) : List Byte :=
  (List.range n).map (fun i => mem (p + i))

/-- Send half of `Buffer` (Buffer.h:492-532): memory, `bufferCapacity_`, `sendPtr_`,
`sendBlockBegin_` (`none` for null), `sendSize_`, `sendType_`. -/
structure Send where
  mem : Nat → Byte
  cap : Nat
  ptr : Nat
  blockBegin : Option Nat
  size : I32
  type : I32

/-- Receive half of `Buffer`: memory, capacity, `recvPtr_`, `recvBlockEnd_`,
`recvSize_`, `recvType_`. -/
structure Recv where
  mem : Nat → Byte
  cap : Nat
  ptr : Nat
  blockEnd : Nat
  size : I32
  type : I32

namespace Send

/-- `clearSendBuffer` (Buffer.cpp:212-218). -/
def clear (s : Send) : Send := { s with ptr := 0, size := 0#32, type := 0#32, blockBegin := none }

/-- `beginSendBlock` (Buffer.cpp:223-242); space for the header is skipped without
comparison with the end of the buffer. -/
def beginBlock (s : Send) (t : I32) : Res Send :=
  if s.size ≠ 0#32 then .throw
  else .ok { s with size := 0#32, type := t, blockBegin := some s.ptr, ptr := s.ptr + 16 }

/-- `pack` (Buffer.h:562-572). -/
def pack (s : Send) (bs : List Byte) : Res Send :=
  if s.ptr + bs.length > s.cap then .throw
  else .ok { s with mem := store s.mem s.ptr bs, ptr := s.ptr + bs.length }

/-- Consecutive calls of `pack`. -/
def packs (s : Send) : List (List Byte) → Res Send
  | [] => .ok s
  | b :: l => (s.pack b).bind (fun s => s.packs l)

/-- `incrementSendSize` (Buffer.h:604-605). -/
def inc (s : Send) : Send := { s with size := s.size + 1#32 }

/-- `endSendBlock` (Buffer.cpp:247-266): four `int`s are stored at the begin of the
block, without comparison with the end of the buffer. -/
def endBlock (s : Send) (complete : Bool) : Res Send :=
  match s.blockBegin with
  | none => .null
  | some b =>
    let sendBytes : I32 := BitVec.ofNat 32 (s.ptr - b)
    let m := store s.mem b (encInt s.size)
    let m := store m (b + 4) (encInt sendBytes)
    let m := store m (b + 8) (encInt s.type)
    let m := store m (b + 12) (encInt (if complete then 1#32 else 0#32))
    .ok { s with mem := m, blockBegin := none, size := 0#32, type := 0#32 }

end Send

/-- Transmission of the used part of a send buffer (`sendRecv`, Buffer.cpp:319-360;
`send`/`recv`, 365-412). MPI delivers the bytes unchanged; that the message is not
longer than the receive buffer is a hypothesis of the theorems. `send`/`recv` also reset
`recvType_`, which is not read before the next `beginRecvBlock`. -/
def transmit (s : Send) (r : Recv) : Recv :=
  { r with mem := fun k => if k < s.ptr then s.mem k else r.mem k, ptr := 0 }

namespace Recv

/-- `beginRecvBlock` (Buffer.cpp:271-296); returns the completion flag. -/
def beginBlock (r : Recv) : Res (Bool × Recv) :=
  if r.size ≠ 0#32 then .throw
  else
    let size := decInt (load r.mem r.ptr 4)
    let bytes := decInt (load r.mem (r.ptr + 4) 4)
    let type := decInt (load r.mem (r.ptr + 8) 4)
    let complete := decInt (load r.mem (r.ptr + 12) 4)
    .ok (decide (complete ≠ 0#32),
      { r with size := size, type := type, blockEnd := r.ptr + bytes.toNat, ptr := r.ptr + 16 })

/-- `unpack` of a type of `n` bytes (Buffer.h:577-587). -/
def unpack (r : Recv) (n : Nat) : Res (List Byte × Recv) :=
  if r.ptr + n > r.cap then .throw
  else .ok (load r.mem r.ptr n, { r with ptr := r.ptr + n })

/-- `unpack<int>`. -/
def unpackInt (r : Recv) : Res (I32 × Recv) :=
  (r.unpack 4).bind (fun x => .ok (decInt x.1, x.2))

/-- `decrementRecvSize` (Buffer.h:610-611). -/
def dec (r : Recv) : Recv := { r with size := r.size - 1#32 }

/-- `endRecvBlock` (Buffer.cpp:301-313). -/
def endBlock (r : Recv) : Res Recv :=
  if r.size ≠ 0#32 then .throw
  else if r.ptr ≠ r.blockEnd then .throw
  else .ok { r with size := 0#32, type := 0#32 }

end Recv

/-! ## Items -/

/-- How a class packs and unpacks one item. -/
structure Codec (I : Type) where
  pack : I → Send → Res Send
  unpack : Recv → Res (I × Recv)

/-- Loop over the items of a block, e.g. Exchanger.cpp:401-423, GroupStorage.tpp:652-673. -/
def packItems {I : Type} (c : Codec I) : List I → Send → Res Send
  | [], s => .ok s
  | i :: l, s => (c.pack i s).bind (fun s => packItems c l s)

/-- A complete block: open, pack items, close. -/
def sendBlock {I : Type} (c : Codec I) (t : I32) (items : List I) (complete : Bool) (s : Send) :
    Res Send :=
  (s.beginBlock t).bind fun s => (packItems c items s).bind fun s => s.endBlock complete

/-- `while (recvSize() > 0)` loop, e.g. GroupStorage.tpp:695-707; `n` bounds the number of
iterations, running out of it is reported as `null`. -/
def unpackItems {I : Type} (c : Codec I) : Nat → Recv → Res (List I × Recv)
  | 0, r => if 0 < r.size.toInt then .null else .ok ([], r)
  | n + 1, r =>
    if 0 < r.size.toInt then
      (c.unpack r).bind fun x => (unpackItems c n x.2).bind fun y => .ok (x.1 :: y.1, y.2)
    else .ok ([], r)

/-- What the receiver obtains from a block. -/
structure Got (I : Type) where
  items : List I
  type : I32
  complete : Bool

/-- A complete block: open, unpack items, close. -/
def recvBlock {I : Type} (c : Codec I) (r : Recv) : Res (Got I × Recv) :=
  r.beginBlock.bind fun x =>
  (unpackItems c (x.2.size.toNat) x.2).bind fun y =>
  y.2.endBlock.bind fun r => .ok (⟨y.1, x.2.type, x.1⟩, r)

section msg
variable {K : Type} {I : K → Type}

/-- A block to be sent: kind, items, completion flag. -/
structure Block (I : K → Type) where
  kind : K
  items : List (I kind)
  complete : Bool

/-- Sender of a message of several blocks into a cleared buffer. -/
def sendMsg (c : (k : K) → Codec (I k)) (tag : K → I32) : List (Block I) → Send → Res Send
  | [], s => .ok s
  | b :: l, s => (sendBlock (c b.kind) (tag b.kind) b.items b.complete s).bind (sendMsg c tag l)

/-- Receiver of a message whose sequence of kinds is known. -/
def recvMsg (c : (k : K) → Codec (I k)) :
    List K → Recv → Res (List (Σ k : K, Got (I k)) × Recv)
  | [], r => .ok ([], r)
  | k :: l, r => (recvBlock (c k) r).bind fun x =>
      (recvMsg c l x.2).bind fun y => .ok (⟨k, x.1⟩ :: y.1, y.2)

end msg

/-! ## Item formats -/

/-- Data of an atom that are exchanged (Atom.cpp:88-109). `Vector`s and the context are
given by their bytes; the mask is given by the list of its ids (justified by C46). -/
structure AtomData where
  id : I32
  typeId : I32
  position : List Byte
  velocity : List Byte
  flags : I32
  groups : I32
  context : List Byte
  mask : List I32
deriving DecidableEq

/-- `sizeof(Vector)`: three doubles. -/
def vecSize : Nat := 24

/-- `Atom::packAtom` (Atom.cpp:88-109); `ctx` is `sizeof(AtomContext)` if contexts are
enabled. -/
def packAtom (ctx : Option Nat) (a : AtomData) (s : Send) : Res Send :=
  (s.packs ([encInt a.id, encInt a.typeId, a.position, a.velocity, encInt a.flags, encInt a.groups]
    ++ (if ctx.isSome then [a.context] else [])
    ++ [encInt (BitVec.ofNat 32 a.mask.length)] ++ a.mask.map encInt)).bind fun s => .ok s.inc

/-- `Mask::append` on the list of ids. -/
def maskAppend (l : List I32) (k : I32) : Res (List I32) :=
  if l.length ≥ 4 then .throw else if k ∈ l then .throw else .ok (l ++ [k])

/-- Loop over the mask in `unpackAtom` (Atom.cpp:137-140). -/
def unpackMask : Nat → List I32 → Recv → Res (List I32 × Recv)
  | 0, l, r => .ok (l, r)
  | n + 1, l, r => r.unpackInt.bind fun x => (maskAppend l x.1).bind fun l => unpackMask n l x.2

/-- `Atom::unpackAtom` (Atom.cpp:114-144). -/
def unpackAtom (ctx : Option Nat) (r : Recv) : Res (AtomData × Recv) :=
  r.unpackInt.bind fun id =>
  id.2.unpackInt.bind fun ty =>
  (ty.2.unpack vecSize).bind fun pos =>
  (pos.2.unpack vecSize).bind fun vel =>
  vel.2.unpackInt.bind fun fl =>
  fl.2.unpackInt.bind fun gr =>
  (match ctx with
   | some n => gr.2.unpack n
   | none => .ok ([], gr.2)).bind fun cx =>
  cx.2.unpackInt.bind fun sz =>
  (unpackMask sz.1.toInt.toNat [] sz.2).bind fun mk =>
  .ok (⟨id.1, ty.1, pos.1, vel.1, fl.1, gr.1, cx.1, mk.1⟩, mk.2.dec)

/-- `Atom::packedAtomSize` (Atom.cpp:149-161). -/
def packedAtomSize (ctx : Option Nat) : Nat :=
  2 * 4 + 2 * vecSize + 2 * 4 + ctx.getD 0 + 4 + 4 * 4

/-- Data of a ghost that are exchanged (Atom.cpp:168-179). -/
structure GhostData where
  id : I32
  typeId : I32
  position : List Byte
  flags : I32
  context : List Byte
deriving DecidableEq

/-- `Atom::packGhost` (Atom.cpp:168-179). -/
def packGhost (ctx : Option Nat) (a : GhostData) (s : Send) : Res Send :=
  (s.packs ([encInt a.id, encInt a.typeId, a.position, encInt a.flags]
    ++ (if ctx.isSome then [a.context] else []))).bind fun s => .ok s.inc

/-- `Atom::unpackGhost` (Atom.cpp:184-199). -/
def unpackGhost (ctx : Option Nat) (r : Recv) : Res (GhostData × Recv) :=
  r.unpackInt.bind fun id =>
  id.2.unpackInt.bind fun ty =>
  (ty.2.unpack vecSize).bind fun pos =>
  pos.2.unpackInt.bind fun fl =>
  (match ctx with
   | some n => fl.2.unpack n
   | none => .ok ([], fl.2)).bind fun cx =>
  .ok (⟨id.1, ty.1, pos.1, fl.1, cx.1⟩, cx.2.dec)

/-- `Atom::packedGhostSize` (Atom.cpp:204-214). -/
def packedGhostSize (ctx : Option Nat) : Nat := 2 * 4 + vecSize + 4 + ctx.getD 0

/-- `packUpdate`, `packForce` (Atom.cpp:221-225, 241-245). -/
def packVec (v : List Byte) (s : Send) : Res Send := (s.packs [v]).bind fun s => .ok s.inc

/-- `unpackUpdate` (Atom.cpp:230-234), and the value read by `unpackForce`
(Atom.cpp:250-256), which adds it to the force. -/
def unpackVec (r : Recv) : Res (List Byte × Recv) :=
  (r.unpack vecSize).bind fun v => .ok (v.1, v.2.dec)

/-- Data of a `Group<N>` that are exchanged (Group.h:448-457); `atomIds` has length `N`. -/
structure GroupData where
  id : I32
  typeId : I32
  atomIds : List I32
  flags : I32
deriving DecidableEq

/-- `Group<N>::pack` (Group.h:448-457). -/
def packGroup (g : GroupData) (s : Send) : Res Send :=
  (s.packs ([encInt g.id, encInt g.typeId] ++ g.atomIds.map encInt ++ [encInt g.flags])).bind
    fun s => .ok s.inc

/-- Loop of `Group<N>::unpack` (Group.h:470-474). -/
def unpackInts : Nat → Recv → Res (List I32 × Recv)
  | 0, r => .ok ([], r)
  | n + 1, r => r.unpackInt.bind fun x => (unpackInts n x.2).bind fun y => .ok (x.1 :: y.1, y.2)

/-- `Group<N>::unpack` (Group.h:463-479). -/
def unpackGroup (N : Nat) (r : Recv) : Res (GroupData × Recv) :=
  r.unpackInt.bind fun id =>
  id.2.unpackInt.bind fun ty =>
  (unpackInts N ty.2).bind fun ids =>
  ids.2.unpackInt.bind fun fl =>
  .ok (⟨id.1, ty.1, ids.1, fl.1⟩, fl.2.dec)

/-- `Group<N>::packedSize` (Group.h:441-442). -/
def packedGroupSize (N : Nat) : Nat := (2 + N) * 4 + 4

/-! ## Allocation -/

/-- Capacities after `allocate` (Buffer.cpp:169-207), integers unbounded:
`bufferCapacity_` is incremented from its initial value -1 (Buffer.cpp:34, 196). -/
structure Alloc where
  atomCapacity : Nat
  ghostCapacity : Nat
  dataCapacity : Nat
  bufferCapacity : ℤ
deriving DecidableEq

/-- `none` if it throws. -/
def allocate (ctx : Option Nat) (atomCapacity ghostCapacity : ℤ) : Option Alloc :=
  if atomCapacity ≤ 0 then none
  else if ghostCapacity ≤ 0 then none
  else
    let na := atomCapacity.toNat
    let ng := ghostCapacity.toNat
    let a := na * packedAtomSize ctx
    let g := ng * packedGhostSize ctx
    if a > g then
      some ⟨na, a / packedGhostSize ctx, a, -1 + (a + 16)⟩
    else
      some ⟨g / packedAtomSize ctx, ng, g, -1 + (g + 16)⟩

/-- `groupCapacity<N>()` (Buffer.h:592-599). -/
def groupCapacity (a : Alloc) (N : Nat) : Nat := a.dataCapacity / packedGroupSize N

end Verif.DdBuffer
