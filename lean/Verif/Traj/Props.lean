/-
C87: trajectory files.
-/
import Verif.Traj.Model
import Mathlib.Tactic.Linarith
import Mathlib.Tactic.Ring
import Mathlib.Tactic.FieldSimp
import Mathlib.Tactic.Positivity
import Mathlib.Tactic.FinCases

set_option autoImplicit false

namespace Verif.Traj

open Verif.Cpp
open Verif.Cpp.Out

/-! ### Coordinates -/

/-- `y` is `x` up to a period `L`, with an error of at most half a unit of the last place. -/
def Near (L x y : ℝ) : Prop := ∃ n : ℤ, |y - (x + n * L)| ≤ L / 2 ^ 33

theorem uintMax_eq : (uintMax : ℝ) = 2 ^ 32 - 1 := by
  unfold uintMax
  rw [Nat.cast_sub (by norm_num)]
  norm_num

theorem encode_unit (r : ℝ) (h0 : 0 ≤ r) (h1 : r < 1) :
    encode r = (do
      require (0 ≤ ⌊(2 ^ 32 : ℝ) * r + 1 / 2⌋ ∧ ⌊(2 ^ 32 : ℝ) * r + 1 / 2⌋ ≤ uintMax)
      ok ⌊(2 ^ 32 : ℝ) * r + 1 / 2⌋.toNat) := by
  unfold encode
  rw [if_neg (not_le.2 h1)]
  simp only
  rw [if_neg (not_lt.2 h0), uintMax_eq]
  have : ((2 : ℝ) ^ 32 - 1) * r + r + 1 / 2 = 2 ^ 32 * r + 1 / 2 := by ring
  rw [this]

theorem encode_ok (r : ℝ) (h0 : 0 ≤ r) (h1 : r < 1 - 1 / 2 ^ 33) :
    ∃ k, encode r = ok k ∧ k < 2 ^ 32 ∧ |decode k - r| ≤ 1 / 2 ^ 33 := by
  have hlt : r < 1 := by linarith [show (0 : ℝ) < 1 / 2 ^ 33 by positivity]
  rw [encode_unit r h0 hlt]
  set z : ℤ := ⌊(2 ^ 32 : ℝ) * r + 1 / 2⌋ with hz
  have a1 : (z : ℝ) ≤ 2 ^ 32 * r + 1 / 2 := Int.floor_le _
  have a2 : (2 : ℝ) ^ 32 * r + 1 / 2 < z + 1 := Int.lt_floor_add_one _
  have b0 : 0 ≤ z := Int.floor_nonneg.2 (by positivity)
  have b1 : z < 2 ^ 32 := by
    have : (2 : ℝ) ^ 32 * r < 2 ^ 32 - 1 / 2 := by
      have := mul_lt_mul_of_pos_left h1 (show (0 : ℝ) < 2 ^ 32 by positivity)
      calc (2 : ℝ) ^ 32 * r < 2 ^ 32 * (1 - 1 / 2 ^ 33) := this
        _ = 2 ^ 32 - 1 / 2 := by norm_num
    have hz' : (z : ℝ) < 2 ^ 32 := by linarith
    exact_mod_cast hz'
  have b2 : z ≤ (uintMax : ℤ) := by
    have : (uintMax : ℤ) = 2 ^ 32 - 1 := by decide
    omega
  rw [require_true ⟨b0, b2⟩]
  refine ⟨z.toNat, rfl, by omega, ?_⟩
  have hc : ((z.toNat : ℕ) : ℝ) = (z : ℝ) := by
    have : ((z.toNat : ℕ) : ℤ) = z := Int.toNat_of_nonneg b0
    exact_mod_cast congrArg (Int.cast : ℤ → ℝ) this
  unfold decode
  rw [hc, uintMax_eq, show (2 : ℝ) ^ 32 - 1 + 1 = 2 ^ 32 by ring, abs_le]
  constructor
  · have : r ≤ (z + 1 / 2) / 2 ^ 32 := by
      rw [le_div_iff₀ (by positivity)]; linarith
    have e : ((z : ℝ) + 1 / 2) / 2 ^ 32 = z * (1 / 2 ^ 32) + 1 / 2 ^ 33 := by ring
    linarith
  · have : ((z : ℝ) - 1 / 2) / 2 ^ 32 ≤ r := by
      rw [div_le_iff₀ (by positivity)]; linarith
    have e : ((z : ℝ) - 1 / 2) / 2 ^ 32 = z * (1 / 2 ^ 32) - 1 / 2 ^ 33 := by ring
    linarith

/-- The coordinate is in the box after one shift by its length, and not within half a unit below the upper
end. -/
def Fits (r : ℝ) : Prop := ∃ n : ℤ, (n = -1 ∨ n = 0 ∨ n = 1) ∧ 0 ≤ r + n ∧ r + n < 1 - 1 / 2 ^ 33

theorem encode_shift (r : ℝ) (n : ℤ) (hn : n = -1 ∨ n = 0 ∨ n = 1) (h0 : 0 ≤ r + n) (h1 : r + n < 1) :
    encode r = encode (r + n) := by
  rcases hn with rfl | rfl | rfl
  · push_cast at h0 h1 ⊢
    have h2 : r ≥ 1 := by linarith
    have h3 : ¬ r + -1 ≥ 1 := by linarith
    have h5 : ¬ r + -1 < 0 := by linarith
    unfold encode
    simp only [if_pos h2, if_neg h3, if_neg h5, sub_eq_add_neg]
  · simp
  · push_cast at h0 h1 ⊢
    have h2 : ¬ r ≥ 1 := by linarith
    by_cases hr : r < 0
    · have h4 : ¬ r + 1 ≥ 1 := by linarith
      have h5 : ¬ r + 1 < 0 := by linarith
      unfold encode
      simp only [if_neg h2, if_pos hr, if_neg h4, if_neg h5]
    · exact absurd h1 (by linarith)

/-- **C87 (coordinates).**  A coordinate that fits is written as a number below 2³² and read with an error of at
most 2⁻³³ lengths of the box, up to a period. -/
theorem C87_coordinate (L x : ℝ) (hL : 0 < L) (h : Fits (x / L)) :
    ∃ k, encode (x / L) = ok k ∧ k < 2 ^ 32 ∧ Near L x (L * decode k) := by
  obtain ⟨n, hn, h0, h1⟩ := h
  obtain ⟨k, hk, hlt, herr⟩ := encode_ok _ h0 h1
  refine ⟨k, ?_, hlt, n, ?_⟩
  · rw [encode_shift _ n hn h0 (by linarith [show (0 : ℝ) < 1 / 2 ^ 33 by positivity]), hk]
  · have e : L * decode k - (x + n * L) = L * (decode k - (x / L + n)) := by field_simp
    rw [e, abs_mul, abs_of_pos hL]
    calc L * |decode k - (x / L + n)| ≤ L * (1 / 2 ^ 33) := mul_le_mul_of_nonneg_left herr hL.le
      _ = L / 2 ^ 33 := by ring

/-- **C87 (upper end of the box, violated).**  For an atom within half a unit below the upper end of the box, a
number that does not fit is converted to `unsigned int`: the behaviour is undefined. -/
theorem C87_upper_violated (r : ℝ) (h0 : 1 - 1 / 2 ^ 33 ≤ r) (h1 : r < 1) : encode r = ub := by
  have hpos : (0 : ℝ) ≤ r := by
    have : (1 : ℝ) / 2 ^ 33 ≤ 1 := by norm_num
    linarith
  rw [encode_unit r hpos h1]
  have : (2 ^ 32 : ℤ) ≤ ⌊(2 ^ 32 : ℝ) * r + 1 / 2⌋ := by
    rw [Int.le_floor]
    push_cast
    have := mul_le_mul_of_nonneg_left h0 (show (0 : ℝ) ≤ 2 ^ 32 by positivity)
    have e : (2 : ℝ) ^ 32 * (1 - 1 / 2 ^ 33) = 2 ^ 32 - 1 / 2 := by norm_num
    linarith
  rw [require_false]
  · rfl
  · rintro ⟨_, h⟩
    have e : (uintMax : ℤ) = 2 ^ 32 - 1 := by decide
    omega

/-- **C87 (atoms far outside, violated).**  An atom two or more lengths above the lower end of the box is shifted
once only, and the behaviour is undefined. -/
theorem C87_far_violated (r : ℝ) (h : 2 ≤ r) : encode r = ub := by
  unfold encode
  rw [if_pos (by linarith)]
  simp only
  rw [if_neg (by linarith), uintMax_eq]
  have : (2 ^ 32 : ℤ) ≤ ⌊((2 : ℝ) ^ 32 - 1) * (r - 1) + (r - 1) + 1 / 2⌋ := by
    rw [Int.le_floor]
    push_cast
    have := mul_le_mul_of_nonneg_left (show (1 : ℝ) ≤ r - 1 by linarith) (show (0 : ℝ) ≤ 2 ^ 32 by positivity)
    linarith
  rw [require_false]
  · rfl
  · rintro ⟨_, h⟩
    have e : (uintMax : ℤ) = 2 ^ 32 - 1 := by decide
    omega

/-! ### Frames -/

/-- A snapshot that can be written and read: a box, distinct atoms that the store has, coordinates that fit. -/
structure Good (s : Snap) (st : Store) : Prop where
  box : ∀ j, 0 < s.box j
  ids : (s.atoms.map Item.id).Nodup
  cap : ∀ a ∈ s.atoms, 0 ≤ a.id ∧ a.id < st.cap
  has : ∀ a ∈ s.atoms, st.has a.id = true
  fits : ∀ a ∈ s.atoms, ∀ j, Fits (a.pos j / s.box j)

/-- The store holds a snapshot: its box, its atoms up to the error of the file, and other atoms as before. -/
structure Holds (s : Snap) (before after : Store) : Prop where
  cap : after.cap = before.cap
  has : after.has = before.has
  box : after.box = s.box
  atoms : ∀ a ∈ s.atoms, ∀ j, Near (s.box j) (a.pos j) (after.pos a.id j)
  others : ∀ id, id ∉ s.atoms.map Item.id → after.pos id = before.pos id

theorem writeAtom_ok (box : Vec) (a : Item) (hb : ∀ j, 0 < box j) (h : ∀ j, Fits (a.pos j / box j)) :
    ∃ x y z : ℕ, writeAtom box a = ok [Val.int a.id, Val.uint x, Val.uint y, Val.uint z]
      ∧ ∀ j, Near (box j) (a.pos j) (box j * decode (![x, y, z] j)) := by
  obtain ⟨x, hx, _, nx⟩ := C87_coordinate (box 0) (a.pos 0) (hb 0) (h 0)
  obtain ⟨y, hy, _, ny⟩ := C87_coordinate (box 1) (a.pos 1) (hb 1) (h 1)
  obtain ⟨z, hz, _, nz⟩ := C87_coordinate (box 2) (a.pos 2) (hb 2) (h 2)
  refine ⟨x, y, z, ?_, ?_⟩
  · unfold writeAtom
    rw [hx, hy, hz]
    rfl
  · intro j
    fin_cases j
    · exact nx
    · exact ny
    · exact nz

theorem loop_length {α σ β : Type} (f : σ → Out σ) (l : List α) (l' : List β) (h : l.length = l'.length) (s : σ) :
    loop (fun x _ => f x) l s = loop (fun x _ => f x) l' s := by
  induction l generalizing l' s with
  | nil =>
    have : l' = [] := List.length_eq_zero_iff.1 h.symm
    subst this
    rfl
  | cons a l ih =>
    obtain ⟨b, l', rfl⟩ : ∃ b t, l' = b :: t := List.exists_cons_of_length_pos (by rw [← h]; simp)
    rw [loop_cons, loop_cons]
    have e : loop (fun x _ => f x) l = loop (fun x _ => f x) l' := funext fun s => ih l' (by simpa using h) s
    rw [e]

theorem atoms_round (box : Vec) (hb : ∀ j, 0 < box j) (l : List Item) : ∀ (f0 : List Val),
    (∀ a ∈ l, ∀ j, Fits (a.pos j / box j)) →
    ∃ f, loop (fun f a => do
        let v ← writeAtom box a
        ok (f ++ v)) l f0 = ok (f0 ++ f)
      ∧ ∀ (st : Store) (rest : List Val), st.box = box → (l.map Item.id).Nodup →
        (∀ a ∈ l, 0 ≤ a.id ∧ a.id < st.cap) → (∀ a ∈ l, st.has a.id = true) →
        ∃ st', loop (fun x _ => readAtom x) l (st, f ++ rest) = ok (st', rest)
          ∧ st'.cap = st.cap ∧ st'.has = st.has ∧ st'.box = box
          ∧ (∀ a ∈ l, ∀ j, Near (box j) (a.pos j) (st'.pos a.id j))
          ∧ ∀ id, id ∉ l.map Item.id → st'.pos id = st.pos id := by
  induction l with
  | nil =>
    intro f0 _
    refine ⟨[], by simp [loop_nil], ?_⟩
    intro st rest hbox _ _ _
    exact ⟨st, by simp [loop_nil], rfl, rfl, hbox, by simp, by simp⟩
  | cons a l ih =>
    intro f0 hf
    obtain ⟨x, y, z, hw, hnear⟩ := writeAtom_ok box a hb (hf a List.mem_cons_self)
    obtain ⟨f, h1, h2⟩ := ih (f0 ++ [Val.int a.id, Val.uint x, Val.uint y, Val.uint z])
      (fun b hb' => hf b (List.mem_cons_of_mem _ hb'))
    refine ⟨[Val.int a.id, Val.uint x, Val.uint y, Val.uint z] ++ f, ?_, ?_⟩
    · rw [loop_cons, hw]
      simp only [ok_bind]
      rw [h1, List.append_assoc]
    · intro st rest hbox hnd hcap hhas
      rw [List.map_cons, List.nodup_cons] at hnd
      have hr : readAtom (st, [Val.int a.id, Val.uint x, Val.uint y, Val.uint z] ++ f ++ rest)
          = ok (st.put a.id (fun d => st.box d * decode (![x, y, z] d)), f ++ rest) := by
        simp only [List.cons_append, List.nil_append, readAtom]
        rw [require_true (hcap a List.mem_cons_self), check_true (hhas a List.mem_cons_self)]
        rfl
      obtain ⟨st', e, c1, c2, c3, c4, c5⟩ := h2 (st.put a.id (fun d => st.box d * decode (![x, y, z] d))) rest hbox
        hnd.2 (fun b h => hcap b (List.mem_cons_of_mem _ h)) (fun b h => hhas b (List.mem_cons_of_mem _ h))
      refine ⟨st', ?_, c1, c2, c3, ?_, ?_⟩
      · rw [loop_cons, hr]
        exact e
      · intro b hbm j
        rcases List.mem_cons.1 hbm with rfl | hbm
        · rw [c5 b.id hnd.1]
          simp only [Store.put, if_true]
          rw [hbox]
          exact hnear j
        · exact c4 b hbm j
      · intro id hid
        rw [List.map_cons, List.mem_cons, not_or] at hid
        rw [c5 id hid.2]
        simp only [Store.put, if_neg hid.1]

/-- **C87 (frame).**  A frame that is written and read back gives the store the box and the positions of the
atoms, and leaves what follows in the file. -/
theorem C87_frame (s : Snap) (st : Store) (h : Good s st) :
    ∃ f, writeFrame s = ok f ∧ ∀ rest, ∃ st',
      readFrame s.atoms.length st (f ++ rest) = ok (some (st', rest)) ∧ Holds s st st' := by
  obtain ⟨f, h1, h2⟩ := atoms_round s.box h.box s.atoms [Val.long s.step, Val.box s.box] h.fits
  refine ⟨_, h1, ?_⟩
  intro rest
  obtain ⟨st', e, c1, c2, c3, c4, c5⟩ := h2 { st with box := s.box } rest rfl h.ids h.cap h.has
  refine ⟨st', ?_, c1, c2, c3, c4, c5⟩
  simp only [List.cons_append, List.nil_append, readFrame]
  rw [loop_length readAtom (List.range (s.atoms.length : ℤ).toNat) s.atoms (by simp), e]
  rfl

/-- Frames one after another. -/
noncomputable def writeFrames (l : List Snap) : Out (List Val) :=
  loop (fun f s => do
    let v ← writeFrame s
    ok (f ++ v)) l []

/-- Successive stores hold successive snapshots. -/
def HoldsAll : List Snap → Store → List Store → Prop
  | [], _, l => l = []
  | s :: ss, st, l => ∃ st' l', l = st' :: l' ∧ Holds s st st' ∧ HoldsAll ss st' l'

theorem frames_round (n : ℕ) (l : List Snap) : ∀ (f0 : List Val) (st : Store),
    (∀ s ∈ l, Good s st ∧ s.atoms.length = n) →
    ∃ f, loop (fun f s => do
        let v ← writeFrame s
        ok (f ++ v)) l f0 = ok (f0 ++ f)
      ∧ ∀ calls, l.length < calls → ∃ sts, readFrames n calls st f = ok (sts, []) ∧ HoldsAll l st sts := by
  induction l with
  | nil =>
    intro f0 st _
    refine ⟨[], by simp [loop_nil], ?_⟩
    intro calls hc
    obtain ⟨c, rfl⟩ : ∃ c, calls = c + 1 := ⟨calls - 1, by simp at hc; omega⟩
    exact ⟨[], by simp [readFrames, readFrame], rfl⟩
  | cons s l ih =>
    intro f0 st hl
    obtain ⟨hs, hn⟩ := hl s List.mem_cons_self
    obtain ⟨v, hv, hread⟩ := C87_frame s st hs
    -- what follows in the file does not depend on the store
    obtain ⟨st0, _, hh0⟩ := hread []
    have good' : ∀ st', Holds s st st' → ∀ t ∈ l, Good t st' ∧ t.atoms.length = n := by
      intro st' hh t ht
      obtain ⟨g, gn⟩ := hl t (List.mem_cons_of_mem _ ht)
      exact ⟨⟨g.box, g.ids, by rw [hh.cap]; exact g.cap, by rw [hh.has]; exact g.has, g.fits⟩, gn⟩
    obtain ⟨f, hf, _⟩ := ih (f0 ++ v) st0 (good' st0 hh0)
    refine ⟨v ++ f, ?_, ?_⟩
    · rw [loop_cons, hv]
      simp only [ok_bind]
      rw [hf, List.append_assoc]
    · intro calls hc
      obtain ⟨c, rfl⟩ : ∃ c, calls = c + 1 := ⟨calls - 1, by omega⟩
      obtain ⟨st', he, hh⟩ := hread f
      obtain ⟨f', hf', hr'⟩ := ih (f0 ++ v) st' (good' st' hh)
      have : f = f' := by
        have e := hf.symm.trans hf'
        simpa using e
      subst this
      obtain ⟨sts, e1, e2⟩ := hr' c (by simp at hc; omega)
      refine ⟨st' :: sts, ?_, st', sts, rfl, hh, e2⟩
      rw [hn] at he
      simp only [readFrames]
      rw [he]
      simp only [ok_bind]
      rw [e1]
      rfl

/-- **C87 (trajectory).**  A trajectory of snapshots of the same number of atoms is read as as many frames, each
of which gives the store the box and positions of its snapshot; then the end of the file is found. -/
theorem C87_trajectory (n : ℕ) (first : Snap) (l : List Snap) (st : Store) (hfirst : first.atoms.length = n)
    (hl : ∀ s ∈ l, Good s st ∧ s.atoms.length = n) :
    ∃ f, writeFrames l = ok f
      ∧ readHeader (writeHeader first ++ f) = ok ((n : ℤ), f)
      ∧ ∀ calls, l.length < calls → ∃ sts, readFrames n calls st f = ok (sts, []) ∧ HoldsAll l st sts := by
  obtain ⟨f, h1, h2⟩ := frames_round n l [] st hl
  refine ⟨f, by simpa [writeFrames] using h1, ?_, h2⟩
  simp [readHeader, writeHeader, hfirst]

/-! ### Groups -/

/-- **C87 (groups).**  The group writer writes the header and the frames of the atoms of the group, as the other
writer would if there were no other atoms. -/
theorem C87_group (g : ℕ) (s : Snap) :
    writeGroupFrame g s = writeFrame ⟨s.step, s.box, inGroup g s.atoms⟩
      ∧ writeGroupHeader g s = writeHeader ⟨s.step, s.box, inGroup g s.atoms⟩ := by
  constructor
  · unfold writeGroupFrame writeFrame inGroup
    simp only
    generalize [Val.long s.step, Val.box s.box] = f0
    induction s.atoms generalizing f0 with
    | nil => simp [loop_nil]
    | cons a l ih =>
      rw [loop_cons]
      by_cases h : a.groups.testBit g
      · rw [if_pos h, List.filter_cons_of_pos (p := fun a : Item => a.groups.testBit g) h, loop_cons]
        congr 1
        funext f
        exact ih f
      · rw [if_neg h, List.filter_cons_of_neg (p := fun a : Item => a.groups.testBit g) h]
        exact ih f0
  · unfold writeGroupHeader writeHeader inGroup
    simp only
    congr 2
    have : ∀ n : ℕ, s.atoms.foldl (fun n a => if a.groups.testBit g then n + 1 else n) (n : ℤ)
        = ((n + (s.atoms.filter fun a => a.groups.testBit g).length : ℕ) : ℤ) := by
      induction s.atoms with
      | nil => intro n; simp
      | cons a l ih =>
        intro n
        rw [List.foldl_cons]
        by_cases h : a.groups.testBit g
        · rw [if_pos h, List.filter_cons_of_pos (p := fun a : Item => a.groups.testBit g) h]
          have := ih (n + 1)
          push_cast at this ⊢
          rw [this, List.length_cons]
          push_cast
          ring
        · rw [if_neg h, List.filter_cons_of_neg (p := fun a : Item => a.groups.testBit g) h]
          exact ih n
    simpa using this 0

/-! ### LAMMPS dumps -/

theorem rows_read (f : Store → Row → Out Store) (g : Store → Row → Vec)
    (hg : ∀ s r id v, g (s.put id v) r = g s r)
    (l : List DdAtom) : ∀ (s : Store),
    (∀ s' : Store, s'.cap = s.cap → s'.has = s.has → s'.box = s.box → ∀ a ∈ l,
      f s' ⟨a.id + 1, a.typeId + 1, 1, a.pos⟩ = ok (s'.put a.id (g s' ⟨a.id + 1, a.typeId + 1, 1, a.pos⟩))) →
    (l.map DdAtom.id).Nodup →
    ∃ s', loop f (l.map fun a => (⟨a.id + 1, a.typeId + 1, 1, a.pos⟩ : Row)) s = ok s'
      ∧ s'.box = s.box
      ∧ (∀ a ∈ l, s'.pos a.id = g s ⟨a.id + 1, a.typeId + 1, 1, a.pos⟩)
      ∧ ∀ id, id ∉ l.map DdAtom.id → s'.pos id = s.pos id := by
  induction l with
  | nil => intro s _ _; exact ⟨s, by simp [loop_nil], rfl, by simp, by simp⟩
  | cons a l ih =>
    intro s h hnd
    rw [List.map_cons, List.nodup_cons] at hnd
    have ha := h s rfl rfl rfl a List.mem_cons_self
    obtain ⟨s', e, e1, e2, e3⟩ := ih (s.put a.id (g s ⟨a.id + 1, a.typeId + 1, 1, a.pos⟩))
      (fun s'' c1 c2 c3 b hb => h s'' c1 c2 c3 b (List.mem_cons_of_mem _ hb)) hnd.2
    refine ⟨s', ?_, e1, ?_, ?_⟩
    · rw [List.map_cons, loop_cons, ha]
      exact e
    · intro b hb
      rcases List.mem_cons.1 hb with rfl | hb
      · rw [e3 b.id hnd.1]
        simp [Store.put]
      · rw [e2 b hb, hg]
    · intro id hid
      rw [List.map_cons, List.mem_cons, not_or] at hid
      rw [e3 id hid.2]
      simp only [Store.put, if_neg hid.1]

/-- **C87 (dump, postprocessor).**  A dump of atoms that the store has gives each atom the position in the dump;
the box stays what it was. -/
theorem C87_dump (b : Bool) (step : ℤ) (box : Vec) (l : List DdAtom) (s : Store)
    (hcap : ∀ a ∈ l, 0 ≤ a.id ∧ a.id < s.cap) (hhas : ∀ a ∈ l, s.has a.id = true)
    (hnd : (l.map DdAtom.id).Nodup) :
    ∃ s', readDump s (writeDump b step box l) = ok s' ∧ s'.box = s.box
      ∧ (∀ a ∈ l, s'.pos a.id = a.pos) ∧ ∀ id, id ∉ l.map DdAtom.id → s'.pos id = s.pos id := by
  refine rows_read readRow (fun _ r => r.pos) (fun _ _ _ _ => rfl) l s ?_ hnd
  intro s' c1 c2 _ a ha
  unfold readRow
  simp only [add_sub_cancel_right]
  rw [require_true (by rw [c1]; exact hcap a ha), check_true (by rw [c2]; exact hhas a ha)]
  rfl

/-- **C87 (box of a dump, violated).**  Whatever box is in a dump, the reader of the postprocessor keeps the old
one. -/
theorem C87_dump_box_violated (s s' : Store) (d : Dump) (h : readDump s d = ok s') : s'.box = s.box := by
  unfold readDump at h
  generalize d.rows = l at h
  induction l generalizing s with
  | nil => rw [loop_nil, ok.injEq] at h; rw [← h]
  | cons r l ih =>
    rw [loop_cons] at h
    obtain ⟨s1, h1, h2⟩ := bind_eq_ok.1 h
    rw [ih s1 h2]
    unfold readRow at h1
    obtain ⟨_, _, h3⟩ := bind_eq_ok.1 h1
    obtain ⟨_, _, h4⟩ := bind_eq_ok.1 h3
    rw [ok.injEq] at h4
    rw [← h4]
    rfl

/-- **C87 (dump, simulation).**  The reader of mcMd also takes the box from the dump, and shifts the atoms into
it; dumps with another number of atoms are refused. -/
theorem C87_dump_mc (shift : Vec → Vec → Vec) (b : Bool) (step : ℤ) (box : Vec) (l : List DdAtom) (s : Store)
    (n : ℕ) (hcap : ∀ a ∈ l, 0 ≤ a.id ∧ a.id < s.cap) (hnd : (l.map DdAtom.id).Nodup) :
    (l.length = n → ∃ s', readDumpMc shift n s (writeDump b step box l) = ok s' ∧ s'.box = box
      ∧ ∀ a ∈ l, s'.pos a.id = shift box a.pos)
    ∧ (l.length ≠ n → readDumpMc shift n s (writeDump b step box l) = Out.throw) := by
  constructor
  · intro hn
    have e : (fun j => (writeDump b step box l).hi j - (writeDump b step box l).lo j) = box := by
      funext j; simp [writeDump]
    obtain ⟨s', h1, h2, h3, _⟩ := rows_read (readRowMc shift) (fun s r => shift s.box r.pos) (fun _ _ _ _ => rfl) l
      { s with box := box } (by
        intro s' c1 _ _ a ha
        unfold readRowMc
        simp only [add_sub_cancel_right]
        rw [require_true (by rw [c1]; exact hcap a ha)]
        rfl) hnd
    refine ⟨s', ?_, h2, h3⟩
    unfold readDumpMc
    rw [check_true (show (writeDump b step box l).nAtom = n from hn), e]
    exact h1
  · intro hn
    unfold readDumpMc
    rw [check_false (show ¬ (writeDump b step box l).nAtom = n from hn)]
    rfl

/-- Cartesian position of an atom of ddMd. -/
def cartesian (isCartesian : Bool) (box : Vec) (a : DdAtom) : Vec :=
  if isCartesian then a.pos else fun j => box j * a.pos j

/-- **C87 (dump of ddMd).**  The positions in a dump are Cartesian if those in the storage are; otherwise, they
are so only for atoms whose Cartesian and generalized positions are the same. -/
theorem C87_dump_cartesian (b : Bool) (step : ℤ) (box : Vec) (l : List DdAtom) :
    (writeDump b step box l).rows.map Row.pos = l.map (cartesian b box)
      ↔ b = true ∨ ∀ a ∈ l, ∀ j, box j * a.pos j = a.pos j := by
  have e : (writeDump b step box l).rows.map Row.pos = l.map DdAtom.pos := by
    simp [writeDump, Function.comp_def]
  rw [e, List.map_inj_left]
  cases b
  · simp only [cartesian, Bool.false_eq_true, if_false, false_or]
    exact ⟨fun h a ha j => (congrFun (h a ha) j).symm, fun h a ha => funext fun j => (h a ha j).symm⟩
  · simp [cartesian]

end Verif.Traj
