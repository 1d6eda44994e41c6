import Verif.DdBuffer.Lemmas

/-! Lemmas about blocks and messages. -/

set_option autoImplicit false

namespace Verif.DdBuffer

section
variable {I : Type} {c : Codec I} {valid : I → Prop} {bytes : I → List Byte}

def body (bytes : I → List Byte) (items : List I) : List Byte := (items.map bytes).flatten

theorem body_cons (i : I) (l : List I) : body bytes (i :: l) = bytes i ++ body bytes l := rfl

theorem packItems_eq (hc : c.Correct valid bytes) (items : List I) : ∀ s : Send,
    (s.ptr ≤ s.cap ∨ items ≠ []) →
    packItems c items s = if s.ptr + (body bytes items).length > s.cap then .throw
      else .ok { s with
        mem := store s.mem s.ptr (body bytes items), ptr := s.ptr + (body bytes items).length,
        size := s.size + BitVec.ofNat 32 items.length } := by
  induction items with
  | nil =>
    intro s h
    have : s.ptr ≤ s.cap := by simpa using h
    simp [packItems, body, store_nil, Nat.not_lt.2 this]
  | cons i l ih =>
    intro s _
    rw [packItems, hc.pack, body_cons, List.length_append]
    by_cases h : s.ptr + (bytes i).length > s.cap
    · rw [if_pos h, if_pos (by omega)]; rfl
    · rw [if_neg h, bind_ok, ih _ (Or.inl (by simp only; omega))]
      simp only [store_append, Nat.add_assoc, List.length_cons]
      split
      · rfl
      · congr 2
        rw [BitVec.add_assoc]; congr 1
        rw [Nat.add_comm l.length 1, BitVec.ofNat_add]

/-- The four words at the begin of a block. -/
def header (n len : Nat) (t : I32) (complete : Bool) : List Byte :=
  encInt (BitVec.ofNat 32 n) ++ encInt (BitVec.ofNat 32 len) ++ encInt t
    ++ encInt (if complete then 1#32 else 0#32)

@[simp] theorem header_length (n len : Nat) (t : I32) (b : Bool) : (header n len t b).length = 16 := rfl

def blockBytes (bytes : I → List Byte) (t : I32) (items : List I) (complete : Bool) : List Byte :=
  header items.length (16 + (body bytes items).length) t complete ++ body bytes items

theorem blockBytes_length (t : I32) (items : List I) (b : Bool) :
    (blockBytes bytes t items b).length = 16 + (body bytes items).length := by
  simp [blockBytes]

theorem header_store (m : Nat → Byte) (p n len : Nat) (t : I32) (b : Bool) :
    store (store (store (store m p (encInt (BitVec.ofNat 32 n))) (p + 4)
      (encInt (BitVec.ofNat 32 len))) (p + 8) (encInt t)) (p + 12)
      (encInt (if b then 1#32 else 0#32)) = store m p (header n len t b) := by
  have e1 := store_append m p (encInt (BitVec.ofNat 32 n)) (encInt (BitVec.ofNat 32 len))
  have e2 := store_append m p (encInt (BitVec.ofNat 32 n) ++ encInt (BitVec.ofNat 32 len)) (encInt t)
  have e3 := store_append m p (encInt (BitVec.ofNat 32 n) ++ encInt (BitVec.ofNat 32 len) ++ encInt t)
    (encInt (if b then 1#32 else 0#32))
  simp only [List.length_append, encInt_length, Nat.reduceAdd] at e1 e2 e3
  rw [header, ← e3, ← e2, ← e1]

/-- Exact outcome of sending a block that has items or begins inside the buffer. -/
theorem sendBlock_eq (hc : c.Correct valid bytes) (t : I32) (items : List I) (b : Bool) (s : Send)
    (h0 : s.size = 0#32) (h1 : s.ptr + 16 ≤ s.cap ∨ items ≠ []) :
    sendBlock c t items b s =
      if s.ptr + (blockBytes bytes t items b).length > s.cap then .throw
      else .ok { s with
        mem := store (store s.mem (s.ptr + 16) (body bytes items)) s.ptr
          (header items.length (16 + (body bytes items).length) t b),
        ptr := s.ptr + (blockBytes bytes t items b).length, blockBegin := none,
        size := 0#32, type := 0#32 } := by
  rw [sendBlock, Send.beginBlock, if_neg (by simp [h0]), bind_ok, packItems_eq hc _ _ h1,
    blockBytes_length]
  simp only
  by_cases h : s.ptr + 16 + (body bytes items).length > s.cap
  · rw [if_pos h, if_pos (by omega)]; rfl
  · rw [if_neg h, if_neg (by omega), bind_ok]
    simp only [Send.endBlock]
    rw [show s.ptr + 16 + (body bytes items).length - s.ptr = 16 + (body bytes items).length by omega]
    have e : (0#32 + BitVec.ofNat 32 items.length) = BitVec.ofNat 32 items.length := by simp
    rw [e, header_store]
    simp only [Nat.add_assoc]

theorem holds_block (m : Nat → Byte) (p : Nat) (t : I32) (items : List I) (b : Bool) :
    Holds (store (store m (p + 16) (body bytes items)) p
      (header items.length (16 + (body bytes items).length) t b)) p (blockBytes bytes t items b) := by
  rw [blockBytes, holds_append]
  refine ⟨holds_store _ _ _, ?_⟩
  rw [header_length]
  exact (holds_store _ _ _).store _ _ (Or.inr (by simp))

theorem toInt_ofNat {n : Nat} (h : n < 2 ^ 31) : (BitVec.ofNat 32 n).toInt = n := by
  rw [BitVec.toInt_eq_toNat_of_lt]
  · simp only [BitVec.toNat_ofNat]; congr 1; omega
  · simp only [BitVec.toNat_ofNat]; omega

theorem unpackItems_ok (hc : c.Correct valid bytes) (items : List I) : ∀ (r : Recv),
    (∀ i ∈ items, valid i) → items.length < 2 ^ 31 → r.size = BitVec.ofNat 32 items.length →
    Holds r.mem r.ptr (body bytes items) → r.ptr + (body bytes items).length ≤ r.cap →
    unpackItems c items.length r = .ok (items,
      { r with ptr := r.ptr + (body bytes items).length, size := 0#32 }) := by
  induction items with
  | nil =>
    intro r _ _ hs _ _
    have hs' : r.size = 0#32 := by simpa using hs
    simp [unpackItems, body, hs']
    rw [← hs']
  | cons i l ih =>
    intro r hv hl hs hh hcap
    rw [body_cons, holds_append] at hh
    rw [body_cons, List.length_append] at hcap ⊢
    simp only [List.length_cons] at hl hs ⊢
    have hpos : 0 < r.size.toInt := by rw [hs, toInt_ofNat hl]; omega
    rw [unpackItems, if_pos hpos, hc.unpack i r (hv i (by simp)) hh.1 (by omega), bind_ok,
      ih _ (fun j hj => hv j (by simp [hj])) (by omega) ?_ hh.2 (by simp only; omega), bind_ok]
    · simp only [Nat.add_assoc]
    · simp only [hs]
      rw [show l.length + 1 = l.length + 1 from rfl, BitVec.ofNat_add]
      exact BitVec.add_sub_cancel _ _

theorem recvBlock_ok (hc : c.Correct valid bytes) (t : I32) (items : List I) (b : Bool) (r : Recv)
    (hv : ∀ i ∈ items, valid i) (hl : items.length < 2 ^ 31)
    (hlen : (blockBytes bytes t items b).length < 2 ^ 31) (h0 : r.size = 0#32)
    (hh : Holds r.mem r.ptr (blockBytes bytes t items b))
    (hcap : r.ptr + (blockBytes bytes t items b).length ≤ r.cap) :
    ∃ e, recvBlock c r = .ok (⟨items, t, b⟩,
      { r with ptr := r.ptr + (blockBytes bytes t items b).length, size := 0#32, type := 0#32,
               blockEnd := e }) := by
  refine ⟨r.ptr + (blockBytes bytes t items b).length, ?_⟩
  rw [blockBytes_length] at *
  rw [blockBytes, holds_append, header_length] at hh
  obtain ⟨hhd, hbody⟩ := hh
  simp only [header, holds_append, List.length_append, encInt_length, Nat.reduceAdd] at hhd
  obtain ⟨⟨⟨e1, e2⟩, e3⟩, e4⟩ := hhd
  have l1 := e1.load; have l2 := e2.load; have l3 := e3.load; have l4 := e4.load
  simp only [encInt_length] at l1 l2 l3 l4
  rw [recvBlock, Recv.beginBlock, if_neg (by simp [h0]), bind_ok]
  simp only [l1, l2, l3, l4, dec_enc]
  have en : (BitVec.ofNat 32 items.length).toNat = items.length := by
    rw [BitVec.toNat_ofNat]; omega
  have el : (BitVec.ofNat 32 (16 + (body bytes items).length)).toNat = 16 + (body bytes items).length := by
    rw [BitVec.toNat_ofNat]; omega
  rw [en, unpackItems_ok hc items _ hv hl rfl hbody (by simp only; omega), bind_ok, Recv.endBlock,
    if_neg (by simp), if_neg (by simp only [el]; omega), bind_ok, el]
  cases b <;> simp [Nat.add_assoc]

end

section
variable {K : Type} {I : K → Type} {c : (k : K) → Codec (I k)} {valid : (k : K) → I k → Prop}
  {bytes : (k : K) → I k → List Byte} {tag : K → I32}

def msgBytes (bytes : (k : K) → I k → List Byte) (tag : K → I32) : List (Block I) → List Byte
  | [] => []
  | b :: l => blockBytes (bytes b.kind) (tag b.kind) b.items b.complete ++ msgBytes bytes tag l

theorem sendMsg_ok (hc : ∀ k, (c k).Correct (valid k) (bytes k)) (msg : List (Block I)) :
    ∀ s : Send, s.size = 0#32 → s.ptr + (msgBytes bytes tag msg).length ≤ s.cap →
    ∃ s', sendMsg c tag msg s = .ok s' ∧ s'.ptr = s.ptr + (msgBytes bytes tag msg).length ∧
      s'.cap = s.cap ∧ s'.size = 0#32 ∧ Holds s'.mem s.ptr (msgBytes bytes tag msg) ∧
      (∀ k, k < s.ptr ∨ s.ptr + (msgBytes bytes tag msg).length ≤ k → s'.mem k = s.mem k) := by
  induction msg with
  | nil =>
    intro s h0 hf
    exact ⟨s, rfl, by simp [msgBytes], rfl, h0, holds_nil _ _, fun _ _ => rfl⟩
  | cons b l ih =>
    intro s h0 hf
    have hf1 := hf
    simp only [msgBytes, List.length_append, blockBytes_length] at hf1
    rw [sendMsg, sendBlock_eq (hc b.kind) _ _ _ _ h0 (Or.inl (by omega)), if_neg
      (by rw [blockBytes_length]; omega), bind_ok]
    obtain ⟨s', e1, e2, e3, e4, e5, e6⟩ := ih
      { s with
        mem := store (store s.mem (s.ptr + 16) (body (bytes b.kind) b.items)) s.ptr
          (header b.items.length (16 + (body (bytes b.kind) b.items).length) (tag b.kind) b.complete),
        ptr := s.ptr + (blockBytes (bytes b.kind) (tag b.kind) b.items b.complete).length,
        blockBegin := none, size := 0#32, type := 0#32 } rfl
      (by simp only [msgBytes, List.length_append] at hf ⊢; omega)
    refine ⟨s', e1, ?_, e3, e4, ?_, ?_⟩
    · rw [e2]; simp only [msgBytes, List.length_append]; omega
    · simp only [msgBytes, holds_append]
      refine ⟨?_, e5⟩
      refine (holds_block s.mem s.ptr (tag b.kind) b.items b.complete).congr ?_
      intro k _ hk
      exact e6 k (Or.inl hk)
    · intro k hk
      simp only [msgBytes, List.length_append, blockBytes_length] at hk
      rw [e6 k (by simp only [blockBytes_length]; omega)]
      simp only
      rw [store_other _ _ (by simp; omega), store_other _ _ (by omega)]

theorem recvMsg_ok (hc : ∀ k, (c k).Correct (valid k) (bytes k)) (msg : List (Block I)) :
    ∀ r : Recv, (∀ b ∈ msg, ∀ i ∈ b.items, valid b.kind i) → (∀ b ∈ msg, b.items.length < 2 ^ 31) →
    r.size = 0#32 → Holds r.mem r.ptr (msgBytes bytes tag msg) →
    (msgBytes bytes tag msg).length < 2 ^ 31 →
    r.ptr + (msgBytes bytes tag msg).length ≤ r.cap →
    ∃ r', recvMsg c (msg.map (·.kind)) r =
        .ok (msg.map (fun b => ⟨b.kind, ⟨b.items, tag b.kind, b.complete⟩⟩), r') ∧
      r'.size = 0#32 ∧ r'.ptr = r.ptr + (msgBytes bytes tag msg).length := by
  induction msg with
  | nil => intro r _ _ h0 _ _ _; exact ⟨r, rfl, h0, by simp [msgBytes]⟩
  | cons b l ih =>
    intro r hv hn h0 hh hl hcap
    simp only [msgBytes, holds_append, List.length_append] at hh hl hcap
    obtain ⟨e, he⟩ := recvBlock_ok (hc b.kind) (tag b.kind) b.items b.complete r
      (hv b (by simp)) (hn b (by simp)) (by omega) h0 hh.1 (by omega)
    obtain ⟨r', f1, f2, f3⟩ := ih
      { r with
        ptr := r.ptr + (blockBytes (bytes b.kind) (tag b.kind) b.items b.complete).length,
        size := 0#32, type := 0#32, blockEnd := e }
      (fun b' hb => hv b' (by simp [hb])) (fun b' hb => hn b' (by simp [hb])) rfl hh.2 (by omega)
      (by simp only; omega)
    refine ⟨r', ?_, f2, ?_⟩
    · simp only [List.map_cons, recvMsg]
      rw [he, bind_ok, f1, bind_ok]
    · rw [f3]; simp only [msgBytes, List.length_append]; omega

/-- A message of non-empty blocks that does not fit throws. -/
theorem sendMsg_throw (hc : ∀ k, (c k).Correct (valid k) (bytes k)) (msg : List (Block I)) :
    ∀ s : Send, s.size = 0#32 → s.ptr ≤ s.cap → (∀ b ∈ msg, b.items ≠ []) →
    s.cap < s.ptr + (msgBytes bytes tag msg).length → sendMsg c tag msg s = .throw := by
  induction msg with
  | nil => intro s _ h1 _ h2; simp [msgBytes] at h2; omega
  | cons b l ih =>
    intro s h0 h1 hne h2
    simp only [msgBytes, List.length_append] at h2
    rw [sendMsg, sendBlock_eq (hc b.kind) _ _ _ _ h0 (Or.inr (hne b (by simp)))]
    by_cases h : s.ptr + (blockBytes (bytes b.kind) (tag b.kind) b.items b.complete).length > s.cap
    · rw [if_pos h]; rfl
    · rw [if_neg h, bind_ok]
      exact ih _ rfl (by simp only; omega) (fun b' hb => hne b' (by simp [hb])) (by simp only; omega)

end
end Verif.DdBuffer
