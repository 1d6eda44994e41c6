/-
DCD trajectories (C89).
-/
import Verif.Dcd.Model
import Mathlib.Tactic.Linarith
import Mathlib.Tactic.Ring
import Mathlib.Data.Fintype.Basic
import Mathlib.Tactic.FinCases
import Mathlib.Tactic.IntervalCases

set_option autoImplicit false

namespace Verif.Dcd

open Verif.Cpp
open Verif.Cpp.Out

/-! ### The format -/

/-- A frame: lengths and angles of the cell, and three lists of coordinates. -/
structure Frame where
  box : Fin 3 → ℝ
  ang : Fin 3 → ℝ
  coord : Fin 3 → List ℝ

/-- A block of `n` coordinates in a file: its size in bytes comes before and after it. -/
def blockVals (n : ℕ) (xs : List ℝ) : List Val :=
  Val.int (4 * (n : ℤ)) :: (xs.map Val.flt ++ [Val.int (4 * (n : ℤ))])

/-- The cell in a file. -/
def cellVals (f : Frame) : List Val :=
  [Val.int 48, Val.dbl (f.box 0), Val.dbl (f.ang 0), Val.dbl (f.box 1), Val.dbl (f.ang 1), Val.dbl (f.ang 2),
    Val.dbl (f.box 2), Val.int 48]

/-- A frame in a file. -/
def frameVals (n : ℕ) (f : Frame) : List Val :=
  cellVals f ++ (blockVals n (f.coord 0) ++ (blockVals n (f.coord 1) ++ blockVals n (f.coord 2)))

/-- The number of atoms in species before `s`. -/
def offset (sp : List (ℕ × ℕ)) (s : ℕ) : ℕ := ((sp.take s).map fun x => x.1 * x.2).sum

/-! ### Reading blocks -/

theorem takeFloats_eq (xs : List ℝ) : ∀ (k : ℕ) (b : ℕ → ℝ) (r : List Val),
    ∃ b', takeFloats xs.length k b (xs.map Val.flt ++ r) = ok (b', ⟨r, true⟩) ∧
      (∀ i, i < k → b' i = b i) ∧ (∀ i, (h : i < xs.length) → b' (k + i) = xs[i]) ∧
      (∀ i, k + xs.length ≤ i → b' i = b i) := by
  induction xs with
  | nil => intro k b r; exact ⟨b, rfl, fun _ _ => rfl, fun i h => absurd h (by simp), fun _ _ => rfl⟩
  | cons x xs ih =>
    intro k b r
    obtain ⟨b', h1, h2, h3, h4⟩ := ih (k + 1) (fun i => if i = k then x else b i) r
    refine ⟨b', h1, ?_, ?_, ?_⟩
    · intro i hi
      rw [h2 i (by omega), if_neg (by omega)]
    · intro i hi
      cases i with
      | zero => rw [Nat.add_zero, h2 k (by omega), if_pos rfl]; rfl
      | succ i =>
        have := h3 i (by simpa using hi)
        rw [show k + (i + 1) = k + 1 + i by omega, this]; rfl
    · intro i hi
      rw [List.length_cons] at hi
      rw [h4 i (by omega), if_neg (by omega)]

theorem takeFloats_short (xs : List ℝ) : ∀ (n k : ℕ) (b : ℕ → ℝ), xs.length < n →
    ∃ b', takeFloats n k b (xs.map Val.flt) = ok (b', ⟨[], false⟩) ∧
      (∀ i, i < k → b' i = b i) ∧ (∀ i, (h : i < xs.length) → b' (k + i) = xs[i]) ∧
      (∀ i, k + xs.length ≤ i → b' i = b i) := by
  induction xs with
  | nil =>
    intro n k b h
    obtain ⟨n, rfl⟩ : ∃ n', n = n' + 1 := ⟨n - 1, by simp at h; omega⟩
    exact ⟨b, rfl, fun _ _ => rfl, fun i h => absurd h (by simp), fun _ _ => rfl⟩
  | cons x xs ih =>
    intro n k b h
    obtain ⟨n, rfl⟩ : ∃ n', n = n' + 1 := ⟨n - 1, by simp at h; omega⟩
    obtain ⟨b', h1, h2, h3, h4⟩ := ih n (k + 1) (fun i => if i = k then x else b i) (by simpa using h)
    refine ⟨b', h1, ?_, ?_, ?_⟩
    · intro i hi
      rw [h2 i (by omega), if_neg (by omega)]
    · intro i hi
      cases i with
      | zero => rw [Nat.add_zero, h2 k (by omega), if_pos rfl]; rfl
      | succ i =>
        have := h3 i (by simpa using hi)
        rw [show k + (i + 1) = k + 1 + i by omega, this]; rfl
    · intro i hi
      rw [List.length_cons] at hi
      rw [h4 i (by omega), if_neg (by omega)]

theorem readBlock_eq (n : ℕ) (j j' : ℤ) (b : ℕ → ℝ) (xs : List ℝ) (hx : xs.length = n) (r : List Val) :
    ∃ b', readBlock n j j' b ⟨blockVals n xs ++ r, true⟩ = ok (b', ⟨r, true⟩) ∧
      ∀ i, (h : i < xs.length) → b' i = xs[i] := by
  obtain ⟨b', h1, _, h3, _⟩ := takeFloats_eq xs 0 b (Val.int (4 * (n : ℤ)) :: r)
  rw [hx] at h1
  refine ⟨b', ?_, fun i h => by have := h3 i h; rwa [Nat.zero_add] at this⟩
  simp [readBlock, blockVals, readInt, readFloats, h1, ok_bind, check_true]

theorem readBlock_short (n : ℕ) (j j' : ℤ) (b : ℕ → ℝ) (xs : List ℝ) (hx : xs.length < n) :
    ∃ b', readBlock n j j' b ⟨Val.int (4 * (n : ℤ)) :: xs.map Val.flt, true⟩ = ok (b', ⟨[], false⟩) ∧
      (∀ i, (h : i < xs.length) → b' i = xs[i]) ∧ ∀ i, xs.length ≤ i → b' i = b i := by
  obtain ⟨b', h1, _, h3, h4⟩ := takeFloats_short xs n 0 b hx
  refine ⟨b', ?_, fun i h => by have := h3 i h; rwa [Nat.zero_add] at this, fun i h => h4 i (by omega)⟩
  simp [readBlock, readInt, readFloats, h1, ok_bind, check_true]

/-! ### Positions -/

theorem total_eq (sp : List (ℕ × ℕ)) : nAtomTotal sp = (sp.map fun x => x.1 * x.2).sum := by
  have : ∀ n, sp.foldl (fun n x => n + x.1 * x.2) n = n + (sp.map fun x => x.1 * x.2).sum := by
    induction sp with
    | nil => intro n; simp
    | cons x sp ih => intro n; rw [List.foldl_cons, ih]; simp [Nat.add_assoc]
  rw [nAtomTotal, this, Nat.zero_add]

theorem offset_succ (sp : List (ℕ × ℕ)) (s : ℕ) (hs : s < sp.length) :
    offset sp (s + 1) = offset sp s + (sp.getD s (0, 0)).1 * (sp.getD s (0, 0)).2 := by
  rw [offset, offset, List.take_succ_eq_append_getElem hs]
  simp [hs]

theorem offset_mono (sp : List (ℕ × ℕ)) (s t : ℕ) (h : s ≤ t) (ht : t ≤ sp.length) :
    offset sp s ≤ offset sp t := by
  induction t, h using Nat.le_induction with
  | base => exact le_rfl
  | succ t _ ih => rw [offset_succ sp t (by omega)]; exact le_trans (ih (by omega)) (Nat.le_add_right _ _)

theorem offset_total (sp : List (ℕ × ℕ)) : offset sp sp.length = nAtomTotal sp := by
  rw [total_eq, offset, List.take_length]

/-- The coordinates in place `k` of the buffers, in the cell. -/
noncomputable def value (r : Reader) (k : ℕ) (d : Fin 3) : ℝ :=
  shift (r.box d) (match d with
    | 0 => r.xBuf k
    | 1 => r.yBuf k
    | 2 => r.zBuf k)

theorem loadMol_eq (r : Reader) (s m n : ℕ) (p : Place → Fin 3 → ℝ) (i : ℕ) (h : i + n ≤ r.nAtoms) :
    ∃ p', loop (loadAtom r s m) (List.range n) (p, i) = ok (p', i + n) ∧
      (∀ a < n, ∀ d, p' (s, m, a) d = value r (i + a) d) ∧
      (∀ q : Place, (q.1 ≠ s ∨ q.2.1 ≠ m) → p' q = p q) := by
  obtain ⟨⟨p', i'⟩, h1, h2, h3, h4⟩ := loop_range_ok
    (P := fun k (x : (Place → Fin 3 → ℝ) × ℕ) => x.2 = i + k ∧
      (∀ a < k, ∀ d, x.1 (s, m, a) d = value r (i + a) d) ∧
      (∀ q : Place, (q.1 ≠ s ∨ q.2.1 ≠ m) → x.1 q = p q))
    (loadAtom r s m) n (p, i) ⟨rfl, fun a ha => absurd ha (by omega), fun _ _ => rfl⟩
    (by
      rintro k hk ⟨p1, i1⟩ ⟨h2, h3, h4⟩
      simp only at h2 h3 h4
      refine ⟨_, by rw [loadAtom, require_true (by simp only; omega), ok_bind], by simp only; omega, ?_, ?_⟩
      · intro a ha d
        by_cases h5 : a = k
        · subst h5
          simp only [if_true, value, h2]
          fin_cases d <;> rfl
        · simp only [Prod.mk.injEq, true_and, h5, if_false]
          exact h3 a (by omega) d
      · intro q hq
        have : q ≠ (s, m, k) := by
          rintro rfl
          simp at hq
        funext d
        simp only [this, if_false]
        rw [h4 q hq])
  simp only at h2
  subst h2
  exact ⟨p', h1, h3, h4⟩

theorem loadSpecies_eq (r : Reader) (s c n : ℕ) (p : Place → Fin 3 → ℝ) (i : ℕ) (h : i + c * n ≤ r.nAtoms) :
    ∃ p', loop (fun x m => loop (loadAtom r s m) (List.range n) x) (List.range c) (p, i) = ok (p', i + c * n) ∧
      (∀ m < c, ∀ a < n, ∀ d, p' (s, m, a) d = value r (i + m * n + a) d) ∧
      (∀ q : Place, q.1 ≠ s → p' q = p q) := by
  obtain ⟨⟨p', i'⟩, h1, h2, h3, h4⟩ := loop_range_ok
    (P := fun k (x : (Place → Fin 3 → ℝ) × ℕ) => x.2 = i + k * n ∧
      (∀ m < k, ∀ a < n, ∀ d, x.1 (s, m, a) d = value r (i + m * n + a) d) ∧
      (∀ q : Place, q.1 ≠ s → x.1 q = p q))
    (fun x m => loop (loadAtom r s m) (List.range n) x) c (p, i)
    ⟨by simp, fun m hm => absurd hm (by omega), fun _ _ => rfl⟩
    (by
      rintro k hk ⟨p1, i1⟩ ⟨h2, h3, h4⟩
      simp only at h2 h3 h4
      have hb : (k + 1) * n ≤ c * n := Nat.mul_le_mul_right n hk
      have hk1 : (k + 1) * n = k * n + n := by ring
      obtain ⟨p2, h5, h6, h7⟩ := loadMol_eq r s k n p1 i1 (by omega)
      refine ⟨(p2, i1 + n), h5, by simp only; omega, ?_, ?_⟩
      · intro m hm a ha d
        by_cases h8 : m = k
        · subst h8
          simp only
          rw [h6 a ha d, h2]
        · simp only
          rw [h7 (s, m, a) (Or.inr h8)]
          exact h3 m (by omega) a ha d
      · intro q hq
        simp only
        rw [h7 q (Or.inl hq), h4 q hq])
  simp only at h2
  subst h2
  exact ⟨p', h1, h3, h4⟩

theorem load_eq (sp : List (ℕ × ℕ)) (r : Reader) (hn : r.nAtoms = nAtomTotal sp) :
    ∃ p', load sp r = ok (p', nAtomTotal sp) ∧
      ∀ s (hs : s < sp.length), ∀ m < sp[s].1, ∀ a < sp[s].2, ∀ d,
        p' (s, m, a) d = value r (offset sp s + m * sp[s].2 + a) d := by
  obtain ⟨⟨p', i'⟩, h1, h2, h3⟩ := loop_range_ok
    (P := fun k (x : (Place → Fin 3 → ℝ) × ℕ) => x.2 = offset sp k ∧
      (∀ s < k, ∀ m < (sp.getD s (0, 0)).1, ∀ a < (sp.getD s (0, 0)).2, ∀ d,
        x.1 (s, m, a) d = value r (offset sp s + m * (sp.getD s (0, 0)).2 + a) d))
    (fun x s =>
    loop (fun x m =>
      loop (loadAtom r s m) (List.range (sp.getD s (0, 0)).2) x)
      (List.range (sp.getD s (0, 0)).1) x) sp.length (r.pos, 0)
    ⟨by simp [offset], fun m hm => absurd hm (by omega)⟩
    (by
      rintro k hk ⟨p1, i1⟩ ⟨h2, h3⟩
      simp only at h2 h3
      have hb := offset_mono sp (k + 1) sp.length hk le_rfl
      rw [offset_total, offset_succ sp k hk] at hb
      obtain ⟨p2, h5, h6, h7⟩ := loadSpecies_eq r k (sp.getD k (0, 0)).1 (sp.getD k (0, 0)).2 p1 i1
        (by rw [hn, h2]; exact hb)
      refine ⟨_, h5, by simp only; rw [offset_succ sp k hk, h2], ?_⟩
      intro s hs m hm a ha d
      by_cases h8 : s = k
      · subst h8
        simp only
        rw [h6 m hm a ha d, h2]
      · simp only
        rw [h7 (s, m, a) h8]
        exact h3 s (by omega) m hm a ha d)
  simp only at h2
  rw [offset_total] at h2
  subst h2
  refine ⟨p', h1, ?_⟩
  intro s hs m hm a ha d
  have e : sp.getD s (0, 0) = sp[s] := by simp [hs]
  have := h3 s hs m (by rw [e]; exact hm) a (by rw [e]; exact ha) d
  rw [e] at this
  exact this

theorem place_lt (sp : List (ℕ × ℕ)) (s : ℕ) (hs : s < sp.length) (m : ℕ) (hm : m < sp[s].1) (a : ℕ)
    (ha : a < sp[s].2) : offset sp s + m * sp[s].2 + a < nAtomTotal sp := by
  have h := offset_mono sp (s + 1) sp.length hs le_rfl
  rw [offset_total, offset_succ sp s hs] at h
  have e : sp.getD s (0, 0) = sp[s] := by simp [hs]
  rw [e] at h
  have h2 : (m + 1) * sp[s].2 ≤ sp[s].1 * sp[s].2 := Nat.mul_le_mul_right _ hm
  have h3 : (m + 1) * sp[s].2 = m * sp[s].2 + sp[s].2 := by ring
  omega

/-! ### Frames -/

theorem readCell_eq (j : Junk) (f : Frame) (rest : List Val) :
    readCell j ⟨cellVals f ++ rest, true⟩ = ok (f.box, ⟨rest, true⟩) := by
  simp only [readCell, cellVals, List.cons_append, List.nil_append, readInt, readDouble, if_true, ok_bind,
    check_true]
  congr 2
  funext d
  fin_cases d <;> rfl

/-- What a system holds after a frame: the lengths of the cell, and for each atom the coordinates in its
place, in the cell. -/
def Shows (sp : List (ℕ × ℕ)) (f : Frame) (r : Reader) : Prop :=
  r.box = f.box ∧ ∀ s (hs : s < sp.length), ∀ m < sp[s].1, ∀ a < sp[s].2, ∀ d,
    r.pos (s, m, a) d = shift (f.box d) ((f.coord d).getD (offset sp s + m * sp[s].2 + a) 0)

/-- **C89**, one frame: it is read, whatever was in memory; each atom gets the coordinates at the place
given by its species, molecule and index; and the reader is at the next frame. -/
theorem C89_frame (sp : List (ℕ × ℕ)) (j : Junk) (r : Reader) (f : Frame) (rest : List Val)
    (hn : r.nAtoms = nAtomTotal sp) (hf : ∀ d, (f.coord d).length = r.nAtoms)
    (hi : r.frameId < r.nFrames) (hr : r.file = ⟨frameVals r.nAtoms f ++ rest, true⟩) :
    ∃ r', readFrame sp j r = ok (true, r') ∧ Shows sp f r' ∧ r'.file = ⟨rest, true⟩ ∧
      r'.frameId = r.frameId + 1 ∧ r'.nFrames = r.nFrames ∧ r'.nAtoms = r.nAtoms := by
  obtain ⟨x, hx, hx2⟩ := readBlock_eq r.nAtoms (j.int 2) (j.int 3) r.xBuf (f.coord 0) (hf 0)
    (blockVals r.nAtoms (f.coord 1) ++ (blockVals r.nAtoms (f.coord 2) ++ rest))
  obtain ⟨y, hy, hy2⟩ := readBlock_eq r.nAtoms (j.int 4) (j.int 5) r.yBuf (f.coord 1) (hf 1)
    (blockVals r.nAtoms (f.coord 2) ++ rest)
  obtain ⟨z, hz, hz2⟩ := readBlock_eq r.nAtoms (j.int 6) (j.int 7) r.zBuf (f.coord 2) (hf 2) rest
  let r1 : Reader := { r with
      box := f.box
      xBuf := x
      yBuf := y
      zBuf := z
      file := ⟨rest, true⟩ }
  obtain ⟨p, hp, hp2⟩ := load_eq sp r1 hn
  refine ⟨{ r1 with pos := p, frameId := r.frameId + 1 }, ?_, ⟨rfl, ?_⟩, rfl, rfl, rfl, rfl⟩
  · rw [readFrame, if_neg (by omega), hr]
    simp only [frameVals, List.append_assoc]
    rw [readCell_eq, ok_bind, hx, ok_bind, hy, ok_bind, hz, ok_bind]
    change (load sp r1 >>= fun p => _) = _
    rw [hp, ok_bind]
  · intro s hs m hm a ha d
    have hlt := place_lt sp s hs m hm a ha
    rw [← hn] at hlt
    change p (s, m, a) d = _
    rw [hp2 s hs m hm a ha d]
    unfold value
    have hl := hf d
    fin_cases d
    · simp only [r1]
      rw [hx2 _ (by rw [hf 0]; exact hlt)]
      simp [hf 0, hlt]
    · simp only [r1]
      rw [hy2 _ (by rw [hf 1]; exact hlt)]
      simp [hf 1, hlt]
    · simp only [r1]
      rw [hz2 _ (by rw [hf 2]; exact hlt)]
      simp [hf 2, hlt]

/-- **C89**, the end: after the last frame named in the header nothing is read or changed. -/
theorem C89_end (sp : List (ℕ × ℕ)) (j : Junk) (r : Reader) (h : r.nFrames ≤ r.frameId) :
    readFrame sp j r = ok (false, r) := by
  rw [readFrame, if_pos h]

/-- **C89**, opening: a file is accepted exactly when its number of atoms is that of all molecules of all
species, and is then at its first frame. -/
theorem C89_open (sp : List (ℕ × ℕ)) (r : Reader) (f : File) :
    (f.nAtoms = (sp.map fun x => x.1 * x.2).sum → ∃ r', openFile sp r f = ok r' ∧ r'.nAtoms = f.nAtoms ∧
      r'.nFrames = f.nFile ∧ r'.frameId = 0 ∧ r'.file = ⟨f.data, true⟩) ∧
    (f.nAtoms ≠ (sp.map fun x => x.1 * x.2).sum → openFile sp r f = Out.throw) := by
  rw [← total_eq]
  constructor
  · intro h
    exact ⟨_, by rw [openFile, check_true h, ok_bind], rfl, rfl, rfl, rfl⟩
  · intro h
    rw [openFile, check_false h, throw_bind]

theorem trajectory_aux (sp : List (ℕ × ℕ)) (j : ℕ → Junk) (fs : List Frame) : ∀ (k : ℕ) (r : Reader) (rest : List Val),
    r.nAtoms = nAtomTotal sp → (∀ f ∈ fs, ∀ d, (f.coord d).length = r.nAtoms) →
    r.frameId + fs.length = r.nFrames → r.file = ⟨(fs.map (frameVals r.nAtoms)).flatten ++ rest, true⟩ →
    ∃ rs : ℕ → Reader, rs 0 = r ∧
      (∀ i, (h : i < fs.length) → readFrame sp (j (k + i)) (rs i) = ok (true, rs (i + 1)) ∧
        Shows sp fs[i] (rs (i + 1))) ∧
      ∀ j', readFrame sp j' (rs fs.length) = ok (false, rs fs.length) := by
  induction fs with
  | nil =>
    intro k r rest _ _ h3 _
    refine ⟨fun _ => r, rfl, fun i h => absurd h (by simp), fun j' => C89_end sp j' r ?_⟩
    simp at h3; omega
  | cons f fs ih =>
    intro k r rest h1 h2 h3 h4
    rw [List.length_cons] at h3
    obtain ⟨r', e1, e2, e3, e4, e5, e6⟩ := C89_frame sp (j k) r f ((fs.map (frameVals r.nAtoms)).flatten ++ rest)
      h1 (h2 f (by simp)) (by omega) (by rw [h4]; simp)
    obtain ⟨rs, g1, g2, g3⟩ := ih (k + 1) r' rest (by rw [e6, h1])
      (fun f hf d => by rw [e6]; exact h2 f (List.mem_cons_of_mem _ hf) d) (by rw [e4, e5]; omega)
      (by rw [e3, e6])
    refine ⟨fun i => match i with
      | 0 => r
      | i + 1 => rs i, rfl, ?_, g3⟩
    intro i hi
    cases i with
    | zero =>
      refine ⟨?_, ?_⟩
      · simp only [Nat.add_zero, g1]; exact e1
      · simp only [g1]; exact e2
    | succ i =>
      have := g2 i (by simpa using hi)
      refine ⟨?_, this.2⟩
      rw [show k + (i + 1) = k + 1 + i by omega]
      exact this.1

/-- **C89**, a trajectory: a file with the frames named in its header is read frame by frame, in order, and
then the end is reported. -/
theorem C89_trajectory (sp : List (ℕ × ℕ)) (j : ℕ → Junk) (r : Reader) (fs : List Frame) (rest : List Val)
    (hf : ∀ f ∈ fs, ∀ d, (f.coord d).length = nAtomTotal sp) :
    ∃ rs : ℕ → Reader,
      openFile sp r ⟨fs.length, nAtomTotal sp, (fs.map (frameVals (nAtomTotal sp))).flatten ++ rest⟩ = ok (rs 0) ∧
      (∀ i, (h : i < fs.length) → readFrame sp (j i) (rs i) = ok (true, rs (i + 1)) ∧
        Shows sp fs[i] (rs (i + 1))) ∧
      ∀ j', readFrame sp j' (rs fs.length) = ok (false, rs fs.length) := by
  obtain ⟨r', h1, h2, h3, h4, h5⟩ := (C89_open sp r
    ⟨fs.length, nAtomTotal sp, (fs.map (frameVals (nAtomTotal sp))).flatten ++ rest⟩).1 (total_eq sp)
  simp only at h2 h3 h5
  obtain ⟨rs, g1, g2, g3⟩ := trajectory_aux sp j fs 0 r' rest h2 (fun f hf' d => by rw [h2]; exact hf f hf' d)
    (by rw [h3, h4]; omega) (by rw [h5, h2])
  refine ⟨rs, by rw [g1]; exact h1, ?_, g3⟩
  intro i hi
  have := g2 i hi
  rwa [Nat.zero_add] at this

/-- **C89**, a file that ends before a frame named in its header, or within the cell of that frame, is
refused, whatever was in memory. -/
theorem C89_missing (sp : List (ℕ × ℕ)) (j : Junk) (r : Reader) (f : Frame) (k : ℕ) (hk : k < 8)
    (hi : r.frameId < r.nFrames) (hr : r.file = ⟨(cellVals f).take k, true⟩) :
    readFrame sp j r = Out.throw := by
  have key : readCell j ⟨(cellVals f).take k, true⟩ = Out.throw := by
    have hc : ∀ (p : Prop) [Decidable p], (check p >>= fun _ => (Out.throw : Out ((Fin 3 → ℝ) × Stream))) = Out.throw := by
      intro p _
      by_cases hp : p
      · rw [check_true hp, ok_bind]
      · rw [check_false hp, throw_bind]
    interval_cases k <;>
      simp [readCell, cellVals, readInt, readDouble, ok_bind, check_true, check_false, throw_bind, hc]
  rw [readFrame, if_neg (by omega), hr, key, throw_bind]

/-- **C89**, a frame whose first block has another size is refused. -/
theorem C89_size (sp : List (ℕ × ℕ)) (j : Junk) (r : Reader) (f : Frame) (n : ℕ) (xs : List ℝ)
    (hx : xs.length = r.nAtoms) (rest : List Val) (hn : n ≠ r.nAtoms) (c : ℤ)
    (hi : r.frameId < r.nFrames)
    (hr : r.file = ⟨cellVals f ++ (Val.int (4 * (n : ℤ)) :: (xs.map Val.flt ++ Val.int c :: rest)), true⟩) :
    readFrame sp j r = Out.throw := by
  obtain ⟨b', h1, _⟩ := takeFloats_eq xs 0 r.xBuf (Val.int c :: rest)
  rw [hx] at h1
  rw [readFrame, if_neg (by omega), hr]
  have : ¬ (4 * (n : ℤ) = 4 * (r.nAtoms : ℤ)) := by omega
  rw [readCell_eq, ok_bind]
  simp only [readInt, readBlock, readFloats, if_true, ok_bind, h1, check_false this, throw_bind]

/-- **C89**, disagreement: a file that ends within the last block of a frame is accepted, whatever was in
memory, and the third coordinates that are not there are those of the frame before. -/
theorem C89_truncated_violated (sp : List (ℕ × ℕ)) (j : Junk) (r : Reader) (f : Frame) (zs : List ℝ)
    (hn : r.nAtoms = nAtomTotal sp) (h0 : (f.coord 0).length = r.nAtoms) (h1 : (f.coord 1).length = r.nAtoms)
    (hz : zs.length < r.nAtoms) (hi : r.frameId < r.nFrames)
    (hr : r.file = ⟨cellVals f ++ (blockVals r.nAtoms (f.coord 0) ++ (blockVals r.nAtoms (f.coord 1) ++
      (Val.int (4 * (r.nAtoms : ℤ)) :: zs.map Val.flt))), true⟩) :
    ∃ r', readFrame sp j r = ok (true, r') ∧ r'.frameId = r.frameId + 1 ∧ r'.file.good = false ∧
      ∀ s (hs : s < sp.length), ∀ m < sp[s].1, ∀ a < sp[s].2, zs.length ≤ offset sp s + m * sp[s].2 + a →
        r'.pos (s, m, a) 2 = shift (f.box 2) (r.zBuf (offset sp s + m * sp[s].2 + a)) := by
  obtain ⟨x, hx, _⟩ := readBlock_eq r.nAtoms (j.int 2) (j.int 3) r.xBuf (f.coord 0) h0
    (blockVals r.nAtoms (f.coord 1) ++ (Val.int (4 * (r.nAtoms : ℤ)) :: zs.map Val.flt))
  obtain ⟨y, hy, _⟩ := readBlock_eq r.nAtoms (j.int 4) (j.int 5) r.yBuf (f.coord 1) h1
    (Val.int (4 * (r.nAtoms : ℤ)) :: zs.map Val.flt)
  obtain ⟨z, hz1, _, hz3⟩ := readBlock_short r.nAtoms (j.int 6) (j.int 7) r.zBuf zs hz
  let r1 : Reader := { r with
      box := f.box
      xBuf := x
      yBuf := y
      zBuf := z
      file := ⟨[], false⟩ }
  obtain ⟨p, hp, hp2⟩ := load_eq sp r1 hn
  refine ⟨{ r1 with pos := p, frameId := r.frameId + 1 }, ?_, rfl, rfl, ?_⟩
  · rw [readFrame, if_neg (by omega), hr]
    rw [readCell_eq, ok_bind, hx, ok_bind, hy, ok_bind, hz1, ok_bind]
    change (load sp r1 >>= fun p => _) = _
    rw [hp, ok_bind]
  · intro s hs m hm a ha hl
    change p (s, m, a) 2 = _
    rw [hp2 s hs m hm a ha 2]
    unfold value
    simp only [r1]
    rw [hz3 _ hl]

end Verif.Dcd
