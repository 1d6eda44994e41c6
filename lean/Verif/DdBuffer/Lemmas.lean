import Verif.DdBuffer.Model

/-! Lemmas about memory, blocks and formats of the message buffer. -/

set_option autoImplicit false

namespace Verif.DdBuffer

@[simp] theorem bind_ok {α β : Type} (a : α) (f : α → Res β) : (Res.ok a).bind f = f a := rfl
@[simp] theorem bind_throw {α β : Type} (f : α → Res β) : (Res.throw : Res α).bind f = .throw := rfl
@[simp] theorem bind_null {α β : Type} (f : α → Res β) : (Res.null : Res α).bind f = .null := rfl

@[simp] theorem encInt_length (x : I32) : (encInt x).length = 4 := rfl

theorem dec_enc (x : I32) : decInt (encInt x) = x := by
  simp only [encInt, decInt]
  apply BitVec.eq_of_getElem_eq
  intro i hi
  simp only [BitVec.getElem_append, BitVec.getElem_extractLsb']
  split
  · simp [BitVec.getElem_eq_testBit_toNat]; rfl
  · split
    · simp [BitVec.getElem_eq_testBit_toNat, show 8 + (i - 8) = i by omega]; rfl
    · split
      · simp [BitVec.getElem_eq_testBit_toNat, show 16 + (i - 8 - 8) = i by omega]; rfl
      · simp [BitVec.getElem_eq_testBit_toNat, show 24 + (i - 8 - 8 - 8) = i by omega]; rfl

/-- The bytes `bs` are stored at address `p`. -/
def Holds (mem : Nat → Byte) (p : Nat) (bs : List Byte) : Prop :=
  ∀ i (h : i < bs.length), mem (p + i) = bs[i]

theorem Holds.load {mem : Nat → Byte} {p : Nat} {bs : List Byte} (h : Holds mem p bs) :
    load mem p bs.length = bs := by
  apply List.ext_getElem
  · simp [DdBuffer.load]
  · intro i h1 h2
    simp [DdBuffer.load, h i h2]

theorem holds_append {mem : Nat → Byte} {p : Nat} {a b : List Byte} :
    Holds mem p (a ++ b) ↔ Holds mem p a ∧ Holds mem (p + a.length) b := by
  constructor
  · intro h
    refine ⟨fun i hi => ?_, fun i hi => ?_⟩
    · have := h i (by simp; omega)
      rw [this, List.getElem_append_left hi]
    · have := h (a.length + i) (by simp; omega)
      rw [Nat.add_assoc, this, List.getElem_append_right (by omega)]
      simp
  · rintro ⟨ha, hb⟩ i hi
    by_cases h : i < a.length
    · rw [List.getElem_append_left h, ha i h]
    · rw [List.getElem_append_right (by omega)]
      have := hb (i - a.length) (by simp at hi; omega)
      rw [← this]; congr 1; omega

theorem holds_nil (mem : Nat → Byte) (p : Nat) : Holds mem p [] := fun _ h => absurd h (by simp)

theorem holds_store (mem : Nat → Byte) (p : Nat) (bs : List Byte) :
    Holds (store mem p bs) p bs := by
  intro i hi
  simp only [store]
  rw [if_pos (by omega)]
  simp [List.getD_eq_getElem?_getD, show p + i - p = i by omega, hi]

theorem store_other (mem : Nat → Byte) {p k : Nat} (bs : List Byte)
    (h : k < p ∨ p + bs.length ≤ k) : store mem p bs k = mem k := by
  simp only [store]; rw [if_neg (by omega)]

theorem Holds.store {mem : Nat → Byte} {q : Nat} {c : List Byte} (hc : Holds mem q c) (p : Nat)
    (bs : List Byte) (h : q + c.length ≤ p ∨ p + bs.length ≤ q) :
    Holds (store mem p bs) q c := by
  intro i hi
  rw [store_other _ _ (by omega)]; exact hc i hi

theorem Holds.congr {mem mem' : Nat → Byte} {q : Nat} {c : List Byte} (hc : Holds mem q c)
    (h : ∀ k, q ≤ k → k < q + c.length → mem' k = mem k) : Holds mem' q c := by
  intro i hi
  rw [h _ (by omega) (by omega)]; exact hc i hi

theorem store_append (mem : Nat → Byte) (p : Nat) (a b : List Byte) :
    store (store mem p a) (p + a.length) b = store mem p (a ++ b) := by
  funext k
  simp only [store, List.length_append]
  by_cases h1 : p + a.length ≤ k ∧ k < p + a.length + b.length
  · rw [if_pos h1, if_pos (by omega)]
    simp only [List.getD_eq_getElem?_getD]
    rw [List.getElem?_append_right (by omega)]
    congr 2; omega
  · rw [if_neg h1]
    by_cases h2 : p ≤ k ∧ k < p + a.length
    · rw [if_pos h2, if_pos (by omega)]
      simp only [List.getD_eq_getElem?_getD]
      rw [List.getElem?_append_left (by omega)]
    · rw [if_neg h2, if_neg (by omega)]

theorem store_nil (mem : Nat → Byte) (p : Nat) : store mem p [] = mem := by
  funext k; simp only [store]; rw [if_neg (by simp)]

/-- Consecutive `pack` calls act as one, and throw iff the total does not fit. -/
theorem packs_eq (l : List (List Byte)) (s : Send) (h0 : s.ptr ≤ s.cap ∨ l ≠ []) :
    s.packs l = if s.ptr + l.flatten.length > s.cap then .throw
      else .ok { s with mem := store s.mem s.ptr l.flatten, ptr := s.ptr + l.flatten.length } := by
  induction l generalizing s with
  | nil =>
    have : s.ptr ≤ s.cap := by simpa using h0
    simp [Send.packs, store_nil, Nat.not_lt.2 this]
  | cons b l ih =>
    simp only [Send.packs, Send.pack, List.flatten_cons, List.length_append]
    by_cases h : s.ptr + b.length > s.cap
    · rw [if_pos h, if_pos (by omega)]; rfl
    · rw [if_neg h, bind_ok, ih _ (Or.inl (by simp; omega))]
      simp only [store_append, Nat.add_assoc]

/-- Contract of an item format: packing writes exactly `bytes i` at the cursor or throws
when these do not fit; unpacking from memory that holds `bytes i` returns `i` and advances. -/
structure Codec.Correct {I : Type} (c : Codec I) (valid : I → Prop) (bytes : I → List Byte) :
    Prop where
  pack : ∀ i s, c.pack i s =
    if s.ptr + (bytes i).length > s.cap then .throw
    else .ok { s with
      mem := store s.mem s.ptr (bytes i), ptr := s.ptr + (bytes i).length, size := s.size + 1#32 }
  unpack : ∀ i r, valid i → Holds r.mem r.ptr (bytes i) → r.ptr + (bytes i).length ≤ r.cap →
    c.unpack r = .ok (i, { r with ptr := r.ptr + (bytes i).length, size := r.size - 1#32 })

theorem Recv.unpack_ok {r : Recv} {bs : List Byte} (n : Nat) (hn : bs.length = n)
    (h : Holds r.mem r.ptr bs) (hc : r.ptr + n ≤ r.cap) :
    r.unpack n = .ok (bs, { r with ptr := r.ptr + n }) := by
  subst hn
  rw [Recv.unpack, if_neg (by omega), h.load]

theorem Recv.unpackInt_ok {r : Recv} {x : I32} (h : Holds r.mem r.ptr (encInt x))
    (hc : r.ptr + 4 ≤ r.cap) : r.unpackInt = .ok (x, { r with ptr := r.ptr + 4 }) := by
  rw [Recv.unpackInt, Recv.unpack_ok 4 rfl h hc, bind_ok, dec_enc]

/-! ### Formats -/

def intsBytes (l : List I32) : List Byte := (l.map encInt).flatten

@[simp] theorem intsBytes_length (l : List I32) : (intsBytes l).length = 4 * l.length := by
  induction l with
  | nil => rfl
  | cons a l ih =>
    have : intsBytes (a :: l) = encInt a ++ intsBytes l := rfl
    rw [this, List.length_append, ih, encInt_length, List.length_cons]; omega

theorem unpackInts_ok (l : List I32) : ∀ r : Recv, Holds r.mem r.ptr (intsBytes l) →
    r.ptr + 4 * l.length ≤ r.cap →
    unpackInts l.length r = .ok (l, { r with ptr := r.ptr + 4 * l.length }) := by
  induction l with
  | nil => intro r _ _; rfl
  | cons a l ih =>
    intro r h hc
    have h' := holds_append.1 (show Holds r.mem r.ptr (encInt a ++ intsBytes l) from h)
    simp only [List.length_cons] at hc ⊢
    rw [unpackInts, Recv.unpackInt_ok h'.1 (by omega), bind_ok, ih _ h'.2 (by simp only; omega), bind_ok]
    simp only [Res.ok.injEq, Prod.mk.injEq, true_and]
    congr 1; omega

theorem unpackMask_ok (l : List I32) : ∀ (m : List I32) (r : Recv),
    Holds r.mem r.ptr (intsBytes l) → r.ptr + 4 * l.length ≤ r.cap →
    (m ++ l).Nodup → (m ++ l).length ≤ 4 →
    unpackMask l.length m r = .ok (m ++ l, { r with ptr := r.ptr + 4 * l.length }) := by
  induction l with
  | nil => intro m r _ _ _ _; simp [unpackMask]
  | cons a l ih =>
    intro m r h hc hn hl
    have h' := holds_append.1 (show Holds r.mem r.ptr (encInt a ++ intsBytes l) from h)
    simp only [List.length_cons, List.length_append] at hc hl ⊢
    have ha : a ∉ m := by
      intro hm
      exact (List.nodup_append.1 hn).2.2 a hm a (by simp) rfl
    rw [unpackMask, Recv.unpackInt_ok h'.1 (by omega), bind_ok, maskAppend,
      if_neg (by omega), if_neg ha, bind_ok,
      ih (m ++ [a]) _ h'.2 (by simp only; omega) (by simpa using hn) (by simp; omega)]
    simp only [Res.ok.injEq, Prod.mk.injEq, List.append_assoc, List.singleton_append, true_and]
    congr 1; omega

/-- Bytes of a packed atom. -/
def atomBytes (ctx : Option Nat) (a : AtomData) : List Byte :=
  encInt a.id ++ encInt a.typeId ++ a.position ++ a.velocity ++ encInt a.flags ++ encInt a.groups
    ++ (if ctx.isSome then a.context else []) ++ encInt (BitVec.ofNat 32 a.mask.length)
    ++ intsBytes a.mask

/-- An atom whose values have the sizes of their C types and whose mask is a mask. -/
structure AtomData.Valid (ctx : Option Nat) (a : AtomData) : Prop where
  pos : a.position.length = vecSize
  vel : a.velocity.length = vecSize
  ctxt : a.context.length = ctx.getD 0
  nodup : a.mask.Nodup
  len : a.mask.length ≤ 4

theorem pack_inc {s : Send} {l : List (List Byte)} {bs : List Byte} (hl : l ≠ [])
    (hb : l.flatten = bs) :
    ((s.packs l).bind fun s => Res.ok s.inc) =
      if s.ptr + bs.length > s.cap then .throw
      else .ok { s with mem := store s.mem s.ptr bs, ptr := s.ptr + bs.length, size := s.size + 1#32 } := by
  rw [packs_eq _ _ (Or.inr hl), hb]
  by_cases h : s.ptr + bs.length > s.cap
  · rw [if_pos h, if_pos h]; rfl
  · rw [if_neg h, if_neg h]; rfl

def atomCodec (ctx : Option Nat) : Codec AtomData := ⟨packAtom ctx, unpackAtom ctx⟩
def ghostCodec (ctx : Option Nat) : Codec GhostData := ⟨packGhost ctx, unpackGhost ctx⟩
def vecCodec : Codec (List Byte) := ⟨packVec, unpackVec⟩
def groupCodec (N : Nat) : Codec GroupData := ⟨packGroup, unpackGroup N⟩

theorem maskLen_toInt {n : Nat} (h : n ≤ 4) : (BitVec.ofNat 32 n).toInt.toNat = n := by
  rcases n with _ | _ | _ | _ | _ | n
  · rfl
  · rfl
  · rfl
  · rfl
  · rfl
  · omega

theorem atomCodec_correct (ctx : Option Nat) :
    (atomCodec ctx).Correct (AtomData.Valid ctx) (atomBytes ctx) where
  pack a s := by
    apply pack_inc (by simp)
    cases ctx <;> simp [atomBytes, intsBytes]
  unpack a r v h hc := by
    have e : (atomBytes ctx a).length = 4 + 4 + 24 + 24 + 4 + 4 + ctx.getD 0 + 4 + 4 * a.mask.length := by
      have h1 : (if ctx.isSome then a.context else []).length = ctx.getD 0 := by
        rw [← v.ctxt]
        cases ctx with
        | none => have := v.ctxt; simpa using this.symm
        | some n => simp
      simp only [atomBytes, List.length_append, encInt_length, v.pos, v.vel, h1, intsBytes_length,
        vecSize]
    have hfix : ({ r with ptr := r.ptr + (atomBytes ctx a).length, size := r.size - 1#32 } : Recv) =
      { r with ptr := r.ptr + (4 + 4 + 24 + 24 + 4 + 4 + ctx.getD 0 + 4 + 4 * a.mask.length),
               size := r.size - 1#32 } := by rw [e]
    rw [hfix]
    rw [e] at hc
    simp only [atomBytes, holds_append, List.length_append, encInt_length, v.pos, v.vel, vecSize] at h
    obtain ⟨⟨⟨⟨⟨⟨⟨⟨h1, h2⟩, h3⟩, h4⟩, h5⟩, h6⟩, h7⟩, h8⟩, h9⟩ := h
    have pv := v.pos
    have vv := v.vel
    have cv := v.ctxt
    rw [vecSize] at pv vv
    simp only [atomCodec, unpackAtom, vecSize]
    rw [Recv.unpackInt_ok h1 (by omega), bind_ok, Recv.unpackInt_ok (x := a.typeId) h2 (by simp only; omega),
      bind_ok, Recv.unpack_ok (bs := a.position) 24 pv (by simpa only [Nat.add_assoc] using h3)
        (by simp only; omega), bind_ok,
      Recv.unpack_ok (bs := a.velocity) 24 vv (by simpa only [Nat.add_assoc] using h4)
        (by simp only; omega), bind_ok,
      Recv.unpackInt_ok (x := a.flags) (by simpa only [Nat.add_assoc] using h5) (by simp only; omega), bind_ok,
      Recv.unpackInt_ok (x := a.groups) (by simpa only [Nat.add_assoc] using h6) (by simp only; omega), bind_ok]
    cases ctx with
    | none =>
      simp only [Option.isSome_none, Bool.false_eq_true, if_false, List.length_nil, Option.getD_none,
        Nat.add_zero] at h8 h9 hc cv ⊢
      rw [bind_ok, Recv.unpackInt_ok (x := BitVec.ofNat 32 a.mask.length)
        (by simpa only [Nat.add_assoc] using h8) (by simp only; omega), bind_ok]
      simp only
      rw [maskLen_toInt v.len, unpackMask_ok a.mask [] _ (by simpa only [Nat.add_assoc] using h9)
        (by simp only; omega) (by simpa using v.nodup) (by simpa using v.len), bind_ok]
      have hctx : a.context = [] := List.length_eq_zero_iff.1 cv
      simp only [Recv.dec, List.nil_append, ← hctx, Nat.add_assoc, Nat.reduceAdd]
    | some n =>
      simp only [Option.isSome_some, if_true, Option.getD_some] at h7 h8 h9 hc cv ⊢
      rw [cv] at h8 h9
      rw [Recv.unpack_ok (bs := a.context) n cv (by simpa only [Nat.add_assoc] using h7)
        (by simp only; omega), bind_ok, Recv.unpackInt_ok (x := BitVec.ofNat 32 a.mask.length)
        (by simpa only [Nat.add_assoc] using h8) (by simp only; omega), bind_ok]
      simp only
      rw [maskLen_toInt v.len, unpackMask_ok a.mask [] _ (by simpa only [Nat.add_assoc] using h9)
        (by simp only; omega) (by simpa using v.nodup) (by simpa using v.len), bind_ok]
      simp only [Recv.dec, List.nil_append, Nat.add_assoc]

/-- Bytes of a packed ghost. -/
def ghostBytes (ctx : Option Nat) (a : GhostData) : List Byte :=
  encInt a.id ++ encInt a.typeId ++ a.position ++ encInt a.flags
    ++ (if ctx.isSome then a.context else [])

structure GhostData.Valid (ctx : Option Nat) (a : GhostData) : Prop where
  pos : a.position.length = vecSize
  ctxt : a.context.length = ctx.getD 0

theorem ghostBytes_length {ctx : Option Nat} {a : GhostData} (v : a.Valid ctx) :
    (ghostBytes ctx a).length = packedGhostSize ctx := by
  have h1 : (if ctx.isSome then a.context else []).length = ctx.getD 0 := by
    rw [← v.ctxt]
    cases ctx with
    | none => have := v.ctxt; simpa using this.symm
    | some n => simp
  simp only [ghostBytes, List.length_append, encInt_length, v.pos, h1, vecSize, packedGhostSize]

theorem atomBytes_length {ctx : Option Nat} {a : AtomData} (v : a.Valid ctx) :
    (atomBytes ctx a).length + 4 * (4 - a.mask.length) = packedAtomSize ctx := by
  have h1 : (if ctx.isSome then a.context else []).length = ctx.getD 0 := by
    rw [← v.ctxt]
    cases ctx with
    | none => have := v.ctxt; simpa using this.symm
    | some n => simp
  have := v.len
  simp only [atomBytes, List.length_append, encInt_length, v.pos, v.vel, h1, intsBytes_length,
    vecSize, packedAtomSize]
  omega

theorem ghostCodec_correct (ctx : Option Nat) :
    (ghostCodec ctx).Correct (GhostData.Valid ctx) (ghostBytes ctx) where
  pack a s := by
    apply pack_inc (by simp)
    cases ctx <;> simp [ghostBytes]
  unpack a r v h hc := by
    have e := ghostBytes_length v
    have hfix : ({ r with ptr := r.ptr + (ghostBytes ctx a).length, size := r.size - 1#32 } : Recv) =
      { r with ptr := r.ptr + (4 + 4 + 24 + 4 + ctx.getD 0), size := r.size - 1#32 } := by
      rw [e]; rfl
    rw [hfix]
    rw [e, packedGhostSize, vecSize] at hc
    simp only [ghostBytes, holds_append, List.length_append, encInt_length, v.pos, vecSize] at h
    obtain ⟨⟨⟨⟨h1, h2⟩, h3⟩, h4⟩, h5⟩ := h
    have pv := v.pos
    have cv := v.ctxt
    rw [vecSize] at pv
    simp only [ghostCodec, unpackGhost, vecSize]
    rw [Recv.unpackInt_ok h1 (by omega), bind_ok, Recv.unpackInt_ok (x := a.typeId) h2 (by simp only; omega),
      bind_ok, Recv.unpack_ok (bs := a.position) 24 pv (by simpa only [Nat.add_assoc] using h3)
        (by simp only; omega), bind_ok,
      Recv.unpackInt_ok (x := a.flags) (by simpa only [Nat.add_assoc] using h4) (by simp only; omega), bind_ok]
    cases ctx with
    | none =>
      simp only [Option.getD_none, Nat.add_zero] at cv ⊢
      have hctx : a.context = [] := List.length_eq_zero_iff.1 cv
      simp only [bind_ok, Recv.dec, ← hctx, Nat.add_assoc]
    | some n =>
      simp only [Option.isSome_some, if_true, Option.getD_some] at h5 hc cv ⊢
      rw [Recv.unpack_ok (bs := a.context) n cv (by simpa only [Nat.add_assoc] using h5)
        (by simp only; omega), bind_ok]
      simp only [Recv.dec, Nat.add_assoc]

theorem vecCodec_correct : vecCodec.Correct (fun v => v.length = vecSize) (fun v => v) where
  pack v s := by apply pack_inc <;> simp
  unpack v r hv h hc := by
    simp only [vecCodec, unpackVec]
    rw [Recv.unpack_ok (bs := v) vecSize hv h (by omega), bind_ok]
    simp only [Recv.dec, hv]

def groupBytes (g : GroupData) : List Byte :=
  encInt g.id ++ encInt g.typeId ++ intsBytes g.atomIds ++ encInt g.flags

theorem groupBytes_length {N : Nat} {g : GroupData} (h : g.atomIds.length = N) :
    (groupBytes g).length = packedGroupSize N := by
  simp only [groupBytes, List.length_append, encInt_length, intsBytes_length, h, packedGroupSize]
  omega

theorem groupCodec_correct (N : Nat) :
    (groupCodec N).Correct (fun g => g.atomIds.length = N) groupBytes where
  pack g s := by
    apply pack_inc (by simp)
    simp [groupBytes, intsBytes]
  unpack g r v h hc := by
    have e := groupBytes_length v
    have hfix : ({ r with ptr := r.ptr + (groupBytes g).length, size := r.size - 1#32 } : Recv) =
      { r with ptr := r.ptr + (4 + 4 + 4 * g.atomIds.length + 4), size := r.size - 1#32 } := by
      rw [e, packedGroupSize, v]; congr 1; omega
    rw [hfix]
    rw [e, packedGroupSize, ← v] at hc
    simp only [groupBytes, holds_append, List.length_append, encInt_length, intsBytes_length] at h
    obtain ⟨⟨⟨h1, h2⟩, h3⟩, h4⟩ := h
    simp only [groupCodec, unpackGroup]
    rw [Recv.unpackInt_ok h1 (by omega), bind_ok, Recv.unpackInt_ok (x := g.typeId) h2 (by simp only; omega),
      bind_ok, ← v, unpackInts_ok g.atomIds _ (by simpa only [Nat.add_assoc] using h3)
        (by simp only; omega), bind_ok,
      Recv.unpackInt_ok (x := g.flags) (by simpa only [Nat.add_assoc] using h4) (by simp only; omega), bind_ok]
    simp only [Recv.dec, Nat.add_assoc]

end Verif.DdBuffer
