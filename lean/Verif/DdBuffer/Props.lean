import Verif.DdBuffer.Blocks

/-!
# C12, C13: message buffer

C12: any sequence of blocks that fits the buffer is received block by block with the same
items, type and completion flag. C13: bounds of the writes, and capacity.
-/

set_option autoImplicit false

namespace Verif.DdBuffer

/-! ## Specification: kinds of item and sizes -/

/-- Kinds of block (Buffer.h:225-226): local atoms, ghosts, position updates, forces, and
groups of `N` atoms. -/
inductive Kind where
  | atom | ghost | update | force | group (N : Nat)

/-- What a caller puts into a block of each kind. -/
def Item : Kind → Type
  | .atom => AtomData
  | .ghost => GhostData
  | .update => List Byte
  | .force => List Byte
  | .group _ => GroupData

/-- Values have the size of their types; a mask has at most four different ids. -/
def Item.valid (ctx : Option Nat) : (k : Kind) → Item k → Prop
  | .atom, a => AtomData.Valid ctx a
  | .ghost, a => GhostData.Valid ctx a
  | .update, v => List.length v = 24
  | .force, v => List.length v = 24
  | .group N, g => (GroupData.atomIds g).length = N

/-- Size in bytes, in terms of the data. -/
def Item.size (ctx : Option Nat) : (k : Kind) → Item k → Nat
  | .atom, a => 68 + ctx.getD 0 + 4 * (AtomData.mask a).length
  | .ghost, _ => 36 + ctx.getD 0
  | .update, _ => 24
  | .force, _ => 24
  | .group N, _ => 12 + 4 * N

/-- Size of a message: 16 bytes per block, plus the items. -/
def msgSize (ctx : Option Nat) (msg : List (Block Item)) : Nat :=
  (msg.map fun b => 16 + (b.items.map (Item.size ctx b.kind)).sum).sum

/-- Block types (Buffer.h:225-226: `enum BlockDataType`). -/
def tag : Kind → I32
  | .atom => 1#32
  | .ghost => 2#32
  | .update => 3#32
  | .force => 4#32
  | .group N => BitVec.ofNat 32 (N + 3)

/-- Pack and unpack functions of each kind. -/
def codec (ctx : Option Nat) : (k : Kind) → Codec (Item k)
  | .atom => atomCodec ctx
  | .ghost => ghostCodec ctx
  | .update => vecCodec
  | .force => vecCodec
  | .group N => groupCodec N

def itemBytes (ctx : Option Nat) : (k : Kind) → Item k → List Byte
  | .atom, a => atomBytes ctx a
  | .ghost, a => ghostBytes ctx a
  | .update, v => v
  | .force, v => v
  | .group _, g => groupBytes g

theorem codec_correct (ctx : Option Nat) (k : Kind) :
    (codec ctx k).Correct (Item.valid ctx k) (itemBytes ctx k) := by
  cases k with
  | atom => exact atomCodec_correct ctx
  | ghost => exact ghostCodec_correct ctx
  | update => exact vecCodec_correct
  | force => exact vecCodec_correct
  | group N => exact groupCodec_correct N

theorem itemBytes_length (ctx : Option Nat) (k : Kind) (i : Item k) (h : Item.valid ctx k i) :
    (itemBytes ctx k i).length = Item.size ctx k i := by
  cases k with
  | atom =>
    have h' : AtomData.Valid ctx i := h
    have := atomBytes_length h'
    have := h'.len
    simp only [itemBytes, Item.size, packedAtomSize, vecSize] at *
    omega
  | ghost =>
    have h' : GhostData.Valid ctx i := h
    have := ghostBytes_length h'
    simp only [itemBytes, Item.size, packedGhostSize, vecSize] at *
    omega
  | update => exact h
  | force => exact h
  | group N =>
    have h' : (GroupData.atomIds i).length = N := h
    have := groupBytes_length h'
    simp only [itemBytes, Item.size, packedGroupSize] at *
    omega

theorem body_length (ctx : Option Nat) (k : Kind) (l : List (Item k))
    (h : ∀ i ∈ l, Item.valid ctx k i) :
    (body (itemBytes ctx k) l).length = (l.map (Item.size ctx k)).sum := by
  induction l with
  | nil => rfl
  | cons i l ih =>
    rw [body_cons, List.length_append, ih (fun j hj => h j (by simp [hj])),
      itemBytes_length ctx k i (h i (by simp))]
    simp

theorem msgBytes_length (ctx : Option Nat) (msg : List (Block Item))
    (h : ∀ b ∈ msg, ∀ i ∈ b.items, Item.valid ctx b.kind i) :
    (msgBytes (itemBytes ctx) tag msg).length = msgSize ctx msg := by
  induction msg with
  | nil => rfl
  | cons b l ih =>
    simp only [msgBytes, List.length_append, blockBytes_length]
    rw [ih (fun b' hb => h b' (by simp [hb])), body_length ctx b.kind b.items (h b (by simp))]
    simp [msgSize]

/-! ## C12 -/

/-- **C12.** Any message of blocks of atoms, ghosts, updates, forces and groups whose total
size does not exceed the capacity is packed without exception. A receiver with the same
capacity that has no open block, whatever its previous content, obtains block by block the
same items in the same order with their type and completion flag, closes every block
without exception, and has then consumed the message exactly. -/
theorem C12_round_trip (ctx : Option Nat) (msg : List (Block Item)) (s : Send) (r : Recv)
    (hv : ∀ b ∈ msg, ∀ i ∈ b.items, Item.valid ctx b.kind i)
    (hn : ∀ b ∈ msg, b.items.length < 2 ^ 31)
    (hint : s.cap < 2 ^ 31) (hcap : r.cap = s.cap) (hr : r.size = 0#32)
    (hfit : msgSize ctx msg ≤ s.cap) :
    ∃ s' r', sendMsg (codec ctx) tag msg s.clear = .ok s' ∧
      recvMsg (codec ctx) (msg.map (·.kind)) (transmit s' r) =
        .ok (msg.map (fun b => ⟨b.kind, ⟨b.items, tag b.kind, b.complete⟩⟩), r') ∧
      s'.ptr = msgSize ctx msg ∧ r'.ptr = s'.ptr ∧ r'.size = 0#32 := by
  have hl := msgBytes_length ctx msg hv
  obtain ⟨s', e1, e2, e3, e4, e5, e6⟩ := sendMsg_ok (tag := tag) (codec_correct ctx) msg s.clear rfl
    (by rw [hl]; simpa [Send.clear] using hfit)
  have e2' : s'.ptr = msgSize ctx msg := by rw [e2, hl]; simp [Send.clear]
  obtain ⟨r', f1, f2, f3⟩ := recvMsg_ok (tag := tag) (codec_correct ctx) msg (transmit s' r) hv hn
    hr (by
      refine Holds.congr (mem := s'.mem) e5 ?_
      intro k _ hk
      have hk' : k < s'.ptr := by rw [e2', ← hl]; simpa [transmit, Send.clear] using hk
      simp [transmit, hk'])
    (by rw [hl]; omega) (by rw [hl]; simp only [transmit]; omega)
  exact ⟨s', r', e1, f1, e2', by rw [f3, hl, e2']; simp [transmit], f2⟩

/-- **C12, no silent truncation.** A message of non-empty blocks that does not fit is refused
by an exception. -/
theorem C12_overflow_throws (ctx : Option Nat) (msg : List (Block Item)) (s : Send)
    (hv : ∀ b ∈ msg, ∀ i ∈ b.items, Item.valid ctx b.kind i)
    (hne : ∀ b ∈ msg, b.items ≠ []) (hfit : s.cap < msgSize ctx msg) :
    sendMsg (codec ctx) tag msg s.clear = .throw :=
  sendMsg_throw (tag := tag) (codec_correct ctx) msg s.clear rfl (Nat.zero_le _) hne
    (by rw [msgBytes_length ctx msg hv]; simpa [Send.clear] using hfit)

/-- **C12, misuse.** A block cannot be opened while items of the previous one are pending,
on either side, and a block that is not completely unpacked cannot be closed. -/
theorem C12_misuse (s : Send) (r : Recv) (t : I32) :
    (s.size ≠ 0#32 → s.beginBlock t = .throw) ∧ (r.size ≠ 0#32 → r.beginBlock = .throw) ∧
    (r.size ≠ 0#32 ∨ r.ptr ≠ r.blockEnd → r.endBlock = .throw) := by
  refine ⟨fun h => by simp [Send.beginBlock, h], fun h => by simp [Recv.beginBlock, h], ?_⟩
  rintro (h | h)
  · simp [Recv.endBlock, h]
  · simp only [Recv.endBlock]; split <;> simp [h]

/-- Two atoms (one with a mask of two ids), an incomplete block of one bond, and an empty
block of ghosts. -/
def exMsg : List (Block Item) :=
  [⟨.atom, [(⟨7#32, 1#32, List.replicate 24 3#8, List.replicate 24 200#8, 0x11#32, 5#32, [], [2#32, 9#32]⟩ : AtomData),
            (⟨8#32, 0#32, List.replicate 24 4#8, List.replicate 24 0#8, 0#32, 0#32, [], []⟩ : AtomData)], true⟩,
   ⟨.group 2, [(⟨3#32, 0#32, [7#32, 8#32], 1#32⟩ : GroupData)], false⟩,
   ⟨.ghost, [], true⟩]

theorem exMsg_valid : ∀ b ∈ exMsg, ∀ i ∈ b.items, Item.valid none b.kind i := by
  intro b hb i hi
  simp only [exMsg, List.mem_cons, List.not_mem_nil, or_false] at hb
  rcases hb with rfl | rfl | rfl
  · have key : ∀ a : AtomData, a ∈ ([⟨7#32, 1#32, List.replicate 24 3#8, List.replicate 24 200#8, 0x11#32, 5#32, [], [2#32, 9#32]⟩,
        ⟨8#32, 0#32, List.replicate 24 4#8, List.replicate 24 0#8, 0#32, 0#32, [], []⟩] : List AtomData) →
        a.Valid none := by
      intro a ha
      simp only [List.mem_cons, List.not_mem_nil, or_false] at ha
      rcases ha with rfl | rfl
      · exact ⟨rfl, rfl, rfl, by decide, by decide⟩
      · exact ⟨rfl, rfl, rfl, by decide, by decide⟩
    exact key i hi
  · have key : ∀ g : GroupData, g ∈ ([⟨3#32, 0#32, [7#32, 8#32], 1#32⟩] : List GroupData) →
        g.atomIds.length = 2 := by
      intro g hg
      rw [List.mem_singleton] at hg; subst hg; rfl
    exact key i hi
  · simp at hi

/-- The hypotheses of C12 are met with a buffer for three atoms. -/
example : ∃ s' r', sendMsg (codec none) tag exMsg
      (Send.clear ⟨fun _ => 0#8, 267, 5, some 3, 9#32, 1#32⟩) = .ok s' ∧
    recvMsg (codec none) (exMsg.map (·.kind)) (transmit s' ⟨fun _ => 99#8, 267, 4, 8, 0#32, 2#32⟩) =
      .ok (exMsg.map (fun b => ⟨b.kind, ⟨b.items, tag b.kind, b.complete⟩⟩), r') ∧
    s'.ptr = 212 ∧ r'.ptr = s'.ptr ∧ r'.size = 0#32 :=
  C12_round_trip none exMsg _ _ exMsg_valid (by
    intro b hb
    simp only [exMsg, List.mem_cons, List.not_mem_nil, or_false] at hb
    rcases hb with rfl | rfl | rfl
    · show 2 < 2 ^ 31; decide
    · show 1 < 2 ^ 31; decide
    · show 0 < 2 ^ 31; decide) (by simp) rfl rfl (by decide)

/-! ## C13: writes -/

/-- Calls on the send side. -/
inductive Op where
  | clear
  | begin_ (t : I32)
  | pack (bs : List Byte)
  | inc
  | end_ (complete : Bool)

def step (s : Send) : Op → Res Send
  | .clear => .ok s.clear
  | .begin_ t => s.beginBlock t
  | .pack bs => s.pack bs
  | .inc => .ok s.inc
  | .end_ b => s.endBlock b

def run (s : Send) : List Op → Res Send
  | [] => .ok s
  | o :: l => (step s o).bind fun s => run s l

/-- **C13, pack.** An accepted `pack`, in any state, changes only bytes inside the buffer,
at the cursor, and stores the value there; it is refused exactly if the value does not fit. -/
theorem C13_pack_inside (s : Send) (bs : List Byte) :
    (s.pack bs = .throw ↔ s.cap < s.ptr + bs.length) ∧
    ∀ s', s.pack bs = .ok s' →
      s'.ptr = s.ptr + bs.length ∧ s'.ptr ≤ s'.cap ∧ s'.cap = s.cap ∧
      load s'.mem s.ptr bs.length = bs ∧
      ∀ k, k < s.ptr ∨ s'.ptr ≤ k → s'.mem k = s.mem k := by
  simp only [Send.pack]
  constructor
  · split <;> simp <;> omega
  · intro s' h
    split at h
    · exact absurd h (by simp)
    · simp only [Res.ok.injEq] at h
      subst h
      refine ⟨rfl, by simp only; omega, rfl, (holds_store _ _ _).load, fun k hk => store_other _ _ hk⟩

/-- Every call of `beginSendBlock` in the history finds 16 bytes of free space. -/
def Room (s : Send) (ops : List Op) : Prop :=
  ∀ pre t post s1, ops = pre ++ Op.begin_ t :: post → run s pre = .ok s1 → s1.ptr + 16 ≤ s1.cap

theorem header_outside {s s' : Send} {c : Bool} {b : Nat} (hb : s.blockBegin = some b)
    (h : s.endBlock c = .ok s') (k : Nat) (hk : k < b ∨ b + 16 ≤ k) : s'.mem k = s.mem k := by
  simp only [Send.endBlock, hb, Res.ok.injEq] at h
  subst h
  simp only
  rw [store_other _ _ (by simp; omega), store_other _ _ (by simp; omega),
    store_other _ _ (by simp; omega), store_other _ _ (by simp; omega)]

/-- **C13, histories.** After any sequence of accepted calls in which every block is opened
with 16 bytes of free space, no byte outside the buffer has changed. -/
theorem C13_writes_inside_partial (ops : List Op) : ∀ (s s' : Send),
    (∀ b, s.blockBegin = some b → b + 16 ≤ s.cap) → Room s ops → run s ops = .ok s' →
    s'.cap = s.cap ∧ ∀ k, s.cap ≤ k → s'.mem k = s.mem k := by
  induction ops with
  | nil =>
    intro s s' _ _ h
    simp only [run, Res.ok.injEq] at h
    subst h
    exact ⟨rfl, fun _ _ => rfl⟩
  | cons o l ih =>
    intro s s' hb hroom h
    have key : ∀ s1, step s o = .ok s1 →
        s1.cap = s.cap ∧ (∀ k, s.cap ≤ k → s1.mem k = s.mem k) ∧
        (∀ b, s1.blockBegin = some b → b + 16 ≤ s1.cap) := by
      intro s1 h1
      cases o with
      | clear =>
        simp only [step, Res.ok.injEq] at h1; subst h1
        exact ⟨rfl, fun _ _ => rfl, fun b hb => absurd hb (by simp [Send.clear])⟩
      | begin_ t =>
        have hr := hroom [] t l s rfl rfl
        simp only [step, Send.beginBlock] at h1
        split at h1
        · exact absurd h1 (by simp)
        · simp only [Res.ok.injEq] at h1; subst h1
          refine ⟨rfl, fun _ _ => rfl, fun b hb => ?_⟩
          simp only [Option.some.injEq] at hb; subst hb; exact hr
      | pack bs =>
        have hp := (C13_pack_inside s bs).2 s1 h1
        refine ⟨hp.2.2.1, fun k hk => hp.2.2.2.2 k (Or.inr (by omega)), ?_⟩
        simp only [step, Send.pack] at h1
        split at h1
        · exact absurd h1 (by simp)
        · simp only [Res.ok.injEq] at h1; subst h1
          exact hb
      | inc =>
        simp only [step, Res.ok.injEq] at h1; subst h1
        exact ⟨rfl, fun _ _ => rfl, hb⟩
      | end_ c =>
        cases hbb : s.blockBegin with
        | none => simp [step, Send.endBlock, hbb] at h1
        | some b =>
          have ho := header_outside hbb h1
          have := hb b hbb
          simp only [step, Send.endBlock, hbb, Res.ok.injEq] at h1
          refine ⟨by subst h1; rfl, fun k hk => ho k (Or.inr (by omega)), ?_⟩
          subst h1
          intro b' hb'
          simp at hb'
    simp only [run] at h
    cases h1 : step s o with
    | throw => simp [h1] at h
    | null => simp [h1] at h
    | ok s1 =>
      rw [h1, bind_ok] at h
      obtain ⟨k1, k2, k3⟩ := key s1 h1
      obtain ⟨i1, i2⟩ := ih s1 s' k3 (by
        intro pre t post s2 he hr
        exact hroom (o :: pre) t post s2 (by rw [he]; rfl) (by simp only [run, h1, bind_ok, hr])) h
      exact ⟨i1.trans k1, fun k hk => (i2 k (by omega)).trans (k2 k hk)⟩

/-- A history with two blocks that satisfies `Room` and is accepted. -/
example : ∃ s', run ⟨fun _ => 0#8, 44, 0, none, 0#32, 0#32⟩
      [.begin_ 1#32, .pack [1#8, 2#8], .inc, .end_ true, .begin_ 2#32, .pack (List.replicate 10 5#8), .inc, .end_ true]
      = .ok s' ∧ s'.ptr = 44 := ⟨_, rfl, rfl⟩

/-- **C13 fails for block headers.** In a buffer of the size allocated for one atom (99 bytes),
one atom without masks followed by an empty block, as sent by an atom exchange in which no
group moves, is accepted without exception and changes the byte after the buffer. -/
theorem C13_writes_inside_violated :
    ∃ (A : Alloc) (s' : Send), allocate none 1 1 = some A ∧ A.bufferCapacity = 99 ∧
      sendMsg (codec none) tag
        [⟨.atom, [(⟨7#32, 1#32, List.replicate 24 3#8, List.replicate 24 200#8, 0#32, 0#32, [], []⟩ : AtomData)], true⟩,
         ⟨.group 2, [], true⟩]
        (Send.clear ⟨fun _ => 0xff#8, 99, 0, none, 0#32, 0#32⟩) = .ok s' ∧
      s'.mem 99 = 0#8 :=
  ⟨_, _, rfl, rfl, rfl, by decide⟩

/-! ## C13: capacity -/

theorem allocate_some {ctx : Option Nat} {na ng : ℤ} {A : Alloc} (h : allocate ctx na ng = some A) :
    0 < na ∧ 0 < ng ∧ A.bufferCapacity = A.dataCapacity + 15 ∧
    A.atomCapacity * packedAtomSize ctx ≤ A.dataCapacity ∧
    A.ghostCapacity * packedGhostSize ctx ≤ A.dataCapacity ∧
    na ≤ A.atomCapacity ∧ ng ≤ A.ghostCapacity := by
  have pa : 0 < packedAtomSize ctx := by simp [packedAtomSize]
  have pg : 0 < packedGhostSize ctx := by rw [packedGhostSize]; omega
  simp only [allocate] at h
  split at h
  · exact absurd h (by simp)
  split at h
  · exact absurd h (by simp)
  split at h
  · simp only [Option.some.injEq] at h; subst h
    simp only
    have hle : ng.toNat ≤ na.toNat * packedAtomSize ctx / packedGhostSize ctx :=
      (Nat.le_div_iff_mul_le pg).2 (by omega)
    exact ⟨by omega, by omega, by omega, Nat.le_refl _, Nat.div_mul_le_self _ _, by omega, by omega⟩
  · simp only [Option.some.injEq] at h; subst h
    simp only
    have hle : na.toNat ≤ ng.toNat * packedGhostSize ctx / packedAtomSize ctx :=
      (Nat.le_div_iff_mul_le pa).2 (by omega)
    exact ⟨by omega, by omega, by omega, Nat.div_mul_le_self _ _, Nat.le_refl _, by omega, by omega⟩

theorem sum_le_mul {l : List Nat} {m : Nat} (h : ∀ x ∈ l, x ≤ m) : l.sum ≤ l.length * m := by
  induction l with
  | nil => simp
  | cons a l ih =>
    have := ih (fun x hx => h x (by simp [hx]))
    have := h a (by simp)
    simp only [List.sum_cons, List.length_cons, Nat.add_mul]; omega

theorem sum_lt_mul {l : List Nat} {m : Nat} (h : ∀ x ∈ l, x ≤ m) (h' : ∃ x ∈ l, x < m) :
    l.sum < l.length * m := by
  induction l with
  | nil => simp at h'
  | cons a l ih =>
    have h1 := sum_le_mul (l := l) (m := m) (fun x hx => h x (by simp [hx]))
    have h2 := h a (by simp)
    simp only [List.sum_cons, List.length_cons, Nat.add_mul]
    obtain ⟨x, hx, hlt⟩ := h'
    rcases List.mem_cons.1 hx with rfl | hx
    · omega
    · have := ih (fun x hx => h x (by simp [hx])) ⟨x, hx, hlt⟩; omega

/-- One block is accepted iff its size fits. -/
theorem one_block (ctx : Option Nat) (b : Block Item) (s : Send)
    (hv : ∀ i ∈ b.items, Item.valid ctx b.kind i) :
    16 + (b.items.map (Item.size ctx b.kind)).sum ≤ s.cap →
    ∃ s', sendMsg (codec ctx) tag [b] s.clear = .ok s' := by
  intro h
  have hv' : ∀ b' ∈ [b], ∀ i ∈ b'.items, Item.valid ctx b'.kind i := by
    intro b' hb'; rw [List.mem_singleton] at hb'; subst hb'; exact hv
  obtain ⟨s', e, _⟩ := sendMsg_ok (tag := tag) (codec_correct ctx) [b] s.clear rfl
    (by rw [msgBytes_length ctx _ hv']; simpa [msgSize, Send.clear] using h)
  exact ⟨s', e⟩

/-- **C13, capacity of an allocated buffer (restricted).** For every configuration, a block of
at most `atomCapacity` atoms is accepted if it has fewer than `atomCapacity` atoms or one of
them has fewer than four masks; fewer than `ghostCapacity` ghosts and fewer than
`groupCapacity` groups are accepted. (Missing: exactly full blocks, which are refused, see
`C13_full_block_refused`.) -/
theorem C13_capacity_partial (ctx : Option Nat) (na ng : ℤ) (A : Alloc) (s : Send)
    (hA : allocate ctx na ng = some A) (hs : (s.cap : ℤ) = A.bufferCapacity)
    (b : Block Item) (hv : ∀ i ∈ b.items, Item.valid ctx b.kind i)
    (hfew : match b with
      | ⟨.atom, l, _⟩ => l.length < A.atomCapacity ∨
          l.length = A.atomCapacity ∧ ∃ a ∈ l, (AtomData.mask a).length < 4
      | ⟨.ghost, l, _⟩ => l.length < A.ghostCapacity
      | ⟨.update, l, _⟩ => l.length < A.ghostCapacity
      | ⟨.force, l, _⟩ => l.length < A.ghostCapacity
      | ⟨.group N, l, _⟩ => l.length < groupCapacity A N) :
    ∃ s', sendMsg (codec ctx) tag [b] s.clear = .ok s' := by
  obtain ⟨-, -, hb, ha, hg, -, -⟩ := allocate_some hA
  apply one_block ctx b s hv
  have hcap : s.cap = A.dataCapacity + 15 := by omega
  rw [hcap]
  suffices h : (b.items.map (Item.size ctx b.kind)).sum < A.dataCapacity by omega
  have few : ∀ (n c m : Nat), n < c → c * m ≤ A.dataCapacity → 0 < m → n * m < A.dataCapacity := by
    intro n c m h1 h2 h3
    exact Nat.lt_of_lt_of_le (Nat.mul_lt_mul_of_pos_right h1 h3) h2
  have hsum : ∀ (k : Kind) (l : List (Item k)) (m : Nat), (∀ i ∈ l, Item.size ctx k i ≤ m) →
      (l.map (Item.size ctx k)).sum ≤ l.length * m := by
    intro k l m h
    have := sum_le_mul (l := l.map (Item.size ctx k)) (m := m) (by
      intro x hx
      obtain ⟨i, hi, rfl⟩ := List.mem_map.1 hx
      exact h i hi)
    simpa using this
  obtain ⟨k, l, c⟩ := b
  cases k with
  | atom =>
    simp only at hfew hv ⊢
    have hle : ∀ i ∈ l, Item.size ctx .atom i ≤ packedAtomSize ctx := by
      intro i hi
      have : AtomData.Valid ctx i := hv i hi
      have := this.len
      simp only [Item.size, packedAtomSize, vecSize]; omega
    rcases hfew with h | ⟨h, a, ha', hm⟩
    · exact Nat.lt_of_le_of_lt (hsum _ _ _ hle) (few _ _ _ h ha (by simp [packedAtomSize]))
    · have := sum_lt_mul (l := l.map (Item.size ctx .atom)) (m := packedAtomSize ctx) (by
        intro x hx
        obtain ⟨i, hi, rfl⟩ := List.mem_map.1 hx
        exact hle i hi) ⟨_, List.mem_map.2 ⟨a, ha', rfl⟩, by
          simp only [Item.size, packedAtomSize, vecSize]; omega⟩
      rw [List.length_map, h] at this
      omega
  | ghost =>
    simp only at hfew hv ⊢
    exact Nat.lt_of_le_of_lt (hsum .ghost l (packedGhostSize ctx) (by
      intro i _; simp only [Item.size, packedGhostSize, vecSize]; omega))
      (few _ _ _ hfew hg (by rw [packedGhostSize]; omega))
  | update =>
    simp only at hfew hv ⊢
    exact Nat.lt_of_le_of_lt (hsum .update l (packedGhostSize ctx) (by
      intro i _; simp only [Item.size, packedGhostSize, vecSize]; omega))
      (few _ _ _ hfew hg (by rw [packedGhostSize]; omega))
  | force =>
    simp only at hfew hv ⊢
    exact Nat.lt_of_le_of_lt (hsum .force l (packedGhostSize ctx) (by
      intro i _; simp only [Item.size, packedGhostSize, vecSize]; omega))
      (few _ _ _ hfew hg (by rw [packedGhostSize]; omega))
  | group N =>
    simp only at hfew hv ⊢
    exact Nat.lt_of_le_of_lt (hsum (.group N) l (packedGroupSize N) (by
      intro i _; simp only [Item.size, packedGroupSize]; omega))
      (few _ _ _ hfew (Nat.div_mul_le_self _ _) (by simp [packedGroupSize]))

/-- **C13, full blocks are refused.** For every configuration, if the atoms determine the
size of the buffer then a block of exactly the configured number of atoms with four masks
each throws; otherwise a block of exactly the configured number of ghosts throws. -/
theorem C13_full_block_refused (ctx : Option Nat) (na ng : ℤ) (A : Alloc) (s : Send)
    (hA : allocate ctx na ng = some A) (hs : (s.cap : ℤ) = A.bufferCapacity) :
    (na.toNat * packedAtomSize ctx > ng.toNat * packedGhostSize ctx →
      ∀ l : List AtomData, (∀ a ∈ l, a.Valid ctx ∧ a.mask.length = 4) → (l.length : ℤ) = na →
        ∀ c, sendMsg (codec ctx) tag [⟨.atom, l, c⟩] s.clear = .throw) ∧
    (na.toNat * packedAtomSize ctx ≤ ng.toNat * packedGhostSize ctx →
      ∀ l : List GhostData, (∀ a ∈ l, a.Valid ctx) → (l.length : ℤ) = ng →
        ∀ c, sendMsg (codec ctx) tag [⟨.ghost, l, c⟩] s.clear = .throw) := by
  obtain ⟨pna, png, hb, -, -, -, -⟩ := allocate_some hA
  have hsum : ∀ (k : Kind) (l : List (Item k)) (m : Nat), (∀ i ∈ l, Item.size ctx k i = m) →
      (l.map (Item.size ctx k)).sum = l.length * m := by
    intro k l m h
    induction l with
    | nil => simp
    | cons a l ih =>
      simp only [List.map_cons, List.sum_cons, List.length_cons, Nat.add_mul]
      rw [ih (fun i hi => h i (by simp [hi])), h a (by simp)]; omega
  constructor
  · intro hgt l hl hn c
    have hd : A.dataCapacity = na.toNat * packedAtomSize ctx := by
      simp only [allocate] at hA
      rw [if_neg (by omega), if_neg (by omega), if_pos hgt, Option.some.injEq] at hA
      subst hA; rfl
    have hs1 := hsum .atom l (packedAtomSize ctx) (by
      intro i hi
      have := (hl i hi).2
      simp only [Item.size, packedAtomSize, vecSize]
      omega)
    refine C12_overflow_throws ctx _ s ?_ ?_ ?_
    · intro b hb i hi; rw [List.mem_singleton] at hb; subst hb; exact (hl i hi).1
    · intro b hb; rw [List.mem_singleton] at hb; subst hb
      intro h0; have : l = [] := h0
      subst this; simp only [List.length_nil] at hn; omega
    · have hln : l.length = na.toNat := by omega
      simp only [msgSize, List.map_cons, List.map_nil, List.sum_cons, List.sum_nil]
      rw [hs1, show List.length (α := Item Kind.atom) l = na.toNat from hln, ← hd]; omega
  · intro hgt l hl hn c
    have hd : A.dataCapacity = ng.toNat * packedGhostSize ctx := by
      simp only [allocate] at hA
      rw [if_neg (by omega), if_neg (by omega), if_neg (by omega), Option.some.injEq] at hA
      subst hA; rfl
    have hs1 := hsum .ghost l (packedGhostSize ctx) (by
      intro i hi
      simp only [Item.size, packedGhostSize, vecSize])
    refine C12_overflow_throws ctx _ s ?_ ?_ ?_
    · intro b hb i hi; rw [List.mem_singleton] at hb; subst hb; exact hl i hi
    · intro b hb; rw [List.mem_singleton] at hb; subst hb
      intro h0; have : l = [] := h0
      subst this; simp only [List.length_nil] at hn; omega
    · have hln : l.length = ng.toNat := by omega
      simp only [msgSize, List.map_cons, List.map_nil, List.sum_cons, List.sum_nil]
      rw [hs1, show List.length (α := Item Kind.ghost) l = ng.toNat from hln, ← hd]; omega

/-- Both cases of the capacity theorems arise. -/
example : allocate none 3 2 = some ⟨3, 7, 252, 267⟩ ∧ allocate none 1 5 = some ⟨2, 5, 180, 195⟩ ∧
    allocate (some 8) 1 1 = some ⟨1, 2, 92, 107⟩ ∧ allocate none 0 5 = none := by decide

end Verif.DdBuffer
