import Verif.DdCellList.Build

/-! # The neighbours of a cell -/

set_option autoImplicit false

namespace Verif.DdCellList

open Verif.Boundary Verif.Cpp Verif.McCellList

variable {A : Type}

/-! ### Ranges of the atom array -/

theorem slice_append (atoms : ℕ → Option A) {b m e : ℕ} (h1 : b ≤ m) (h2 : m ≤ e) :
    slice atoms b e = slice atoms b m ++ slice atoms m e := by
  unfold slice
  obtain ⟨p, rfl⟩ := Nat.exists_eq_add_of_le h1
  obtain ⟨q, rfl⟩ := Nat.exists_eq_add_of_le h2
  have e1 : b + p + q - b = p + q := by omega
  have e2 : b + p - b = p := by omega
  have e3 : b + p + q - (b + p) = q := by omega
  rw [e1, e2, e3, List.range_add, List.map_append, List.map_map]
  congr 1
  apply List.map_congr_left
  intro i _
  simp only [Function.comp, Nat.add_assoc]

theorem slice_cell {s : CL A} (h : Built s) {k : ℤ} (h0 : 0 ≤ k) (h1 : k < s.size) :
    slice s.atoms (pre s.tags k) (pre s.tags (k + 1)) = inCell s.tags k := by
  apply List.ext_getElem?
  intro j
  have e : pre s.tags (k + 1) - pre s.tags k = cnt s.tags k := by rw [pre_succ]; omega
  unfold slice
  rw [e]
  rcases lt_or_ge j (cnt s.tags k) with hj | hj
  · rw [← h.atoms k h0 h1 j hj]
    simp [hj]
  · rw [List.getElem?_eq_none (by simpa using hj), List.getElem?_eq_none (by rw [length_inCell]; exact hj)]

theorem slice_cells {s : CL A} (h : Built s) {k1 : ℤ} (h0 : 0 ≤ k1) (m : ℕ) (h1 : k1 + m ≤ s.size) :
    slice s.atoms (pre s.tags k1) (pre s.tags (k1 + m)) =
      (loop k1 (k1 + m - 1)).flatMap (inCell s.tags) := by
  induction m with
  | zero => rw [loop_empty (by push_cast; omega)]; simp [slice]
  | succ m ih =>
    have e : k1 + ((m + 1 : ℕ) : ℤ) = (k1 + m) + 1 := by push_cast; ring
    rw [slice_append s.atoms (m := pre s.tags (k1 + m)) (pre_mono _ (by omega))
      (pre_mono _ (by push_cast; omega)), ih (by push_cast at h1; omega), e,
      slice_cell h (by omega) (by push_cast at h1; omega)]
    have e2 : k1 + (m : ℤ) + 1 - 1 = (k1 + m - 1) + 1 := by ring
    rw [e2, loop_succ (by omega), List.flatMap_append]
    simp

/-- The atoms gathered for a strip are those of its cells, in order. -/
theorem strip_eq {s : CL A} (h : Built s) {k1 k2 : ℤ} (h0 : 0 ≤ k1) (h12 : k1 ≤ k2)
    (h1 : k2 < s.size) : s.strip k1 k2 = (loop k1 k2).flatMap (inCell s.tags) := by
  unfold CL.strip
  rw [(h.cells k1 h0 (by omega)).1, (h.cells k2 (by omega) h1).1, (h.cells k2 (by omega) h1).2]
  simp only [Option.getD_some]
  rw [← pre_succ]
  have := slice_cells h h0 (k2 + 1 - k1).toNat (by omega)
  rw [show k1 + ((k2 + 1 - k1).toNat : ℤ) = k2 + 1 by omega, show k2 + 1 - 1 = k2 by ring] at this
  exact this

/-! ### Trimming to ghost cells -/

theorem upToGhost_spec (cells : ℤ → Cell) (f : ℕ) (b y : ℤ) (h1 : b ≤ y) (h2 : y ≤ b + f)
    (hy : (cells y).ghost = true) :
    b ≤ upToGhost cells f b ∧ upToGhost cells f b ≤ y ∧ (cells (upToGhost cells f b)).ghost = true ∧
      ∀ x, b ≤ x → x < upToGhost cells f b → (cells x).ghost = false := by
  induction f generalizing b with
  | zero =>
    have : y = b := by push_cast at h2; omega
    subst this
    exact ⟨le_rfl, le_rfl, hy, fun x a b => by simp only [upToGhost] at b; omega⟩
  | succ f ih =>
    unfold upToGhost
    split_ifs with hb
    · exact ⟨le_rfl, h1, hb, fun x a b => by omega⟩
    · have hne : b ≠ y := by rintro rfl; exact hb hy
      obtain ⟨i1, i2, i3, i4⟩ := ih (b + 1) (by omega) (by push_cast at h2; omega)
      refine ⟨by omega, i2, i3, ?_⟩
      intro x hx1 hx2
      by_cases e : x = b
      · subst e; simpa using hb
      · exact i4 x (by omega) hx2

theorem downToGhost_spec (cells : ℤ → Cell) (f : ℕ) (e y : ℤ) (h1 : y ≤ e) (h2 : e - f ≤ y)
    (hy : (cells y).ghost = true) :
    downToGhost cells f e ≤ e ∧ y ≤ downToGhost cells f e ∧
      (cells (downToGhost cells f e)).ghost = true ∧
      ∀ x, downToGhost cells f e < x → x ≤ e → (cells x).ghost = false := by
  induction f generalizing e with
  | zero =>
    have : y = e := by push_cast at h2; omega
    subst this
    exact ⟨le_rfl, le_rfl, hy, fun x a b => by simp only [downToGhost] at a; omega⟩
  | succ f ih =>
    unfold downToGhost
    split_ifs with hb
    · exact ⟨le_rfl, h1, hb, fun x a b => by omega⟩
    · have hne : e ≠ y := by rintro rfl; exact hb hy
      obtain ⟨i1, i2, i3, i4⟩ := ih (e - 1) (by omega) (by push_cast at h2; omega)
      refine ⟨by omega, i2, i3, ?_⟩
      intro x hx1 hx2
      by_cases e' : x = e
      · subst e'; simpa using hb
      · exact i4 x hx1 (by omega)

theorem filter_loop (p : ℤ → Bool) {b e r1 r2 : ℤ} (h1 : b ≤ r1) (h2 : r2 ≤ e) (h12 : r1 ≤ r2 + 1)
    (lo : ∀ x, b ≤ x → x < r1 → p x = false) (mid : ∀ x, r1 ≤ x → x ≤ r2 → p x = true)
    (hi : ∀ x, r2 < x → x ≤ e → p x = false) : (loop b e).filter p = loop r1 r2 := by
  rw [loop_append (a := b) (b := r1 - 1) (c := e) (by omega) (by omega),
    loop_append (a := r1 - 1 + 1) (b := r2) (c := e) (by omega) (by omega), List.filter_append,
    List.filter_append]
  have e1 : (loop b (r1 - 1)).filter p = [] := by
    rw [List.filter_eq_nil_iff]; intro x hx; rw [mem_loop] at hx
    rw [lo x (by omega) (by omega)]; simp
  have e3 : (loop (r2 + 1) e).filter p = [] := by
    rw [List.filter_eq_nil_iff]; intro x hx; rw [mem_loop] at hx
    rw [hi x (by omega) (by omega)]; simp
  have e2 : (loop (r1 - 1 + 1) r2).filter p = loop r1 r2 := by
    rw [show r1 - 1 + 1 = r1 by ring, List.filter_eq_self]
    intro x hx; rw [mem_loop] at hx; exact mid x hx.1 hx.2
  rw [e1, e2, e3]; simp

/-- If the ghost cells of a strip are contiguous, the trimmed strip contains exactly them. -/
theorem trim_eq (cells : ℤ → Cell) {b e : ℤ} (hbe : b ≤ e)
    (hg : (cells b).ghost = true ∨ (cells e).ghost = true)
    (hconv : ∀ x y z, b ≤ x → x ≤ y → y ≤ z → z ≤ e → (cells x).ghost = true →
      (cells z).ghost = true → (cells y).ghost = true) :
    (loop b e).filter (fun k => (cells k).ghost) =
      loop (upToGhost cells (e - b).toNat b) (downToGhost cells (e - b).toNat e) ∧
    b ≤ upToGhost cells (e - b).toNat b ∧ downToGhost cells (e - b).toNat e ≤ e ∧
    upToGhost cells (e - b).toNat b ≤ downToGhost cells (e - b).toNat e := by
  obtain ⟨y, hy1, hy2, hy⟩ : ∃ y, b ≤ y ∧ y ≤ e ∧ (cells y).ghost = true := by
    rcases hg with h | h
    · exact ⟨b, le_rfl, hbe, h⟩
    · exact ⟨e, hbe, le_rfl, h⟩
  obtain ⟨u1, u2, u3, u4⟩ := upToGhost_spec cells (e - b).toNat b y hy1 (by omega) hy
  obtain ⟨d1, d2, d3, d4⟩ := downToGhost_spec cells (e - b).toNat e y hy2 (by omega) hy
  refine ⟨filter_loop _ u1 d1 (by omega) u4 ?_ d4, u1, d1, by omega⟩
  intro x hx1 hx2
  exact hconv _ x _ u1 hx1 hx2 d1 u3 d3

/-! ### Near cells -/

/-- Linear offset of a difference of cell coordinates. -/
def off (d : IVec) (δ : IVec) : ℤ := δ 0 * (d 2 * d 1) + δ 1 * d 2 + δ 2

theorem cellIndex_add (d c δ : IVec) :
    cellIndex d (c 0 + δ 0) (c 1 + δ 1) (c 2 + δ 2) = cellIndex d (c 0) (c 1) (c 2) + off d δ := by
  unfold cellIndex off; ring

/-- The test made when the strips are computed. -/
def NearCell (q : Vec) (n : ℤ) (δ : IVec) : Prop :=
  (∀ i, |δ i| ≤ n) ∧ eVal (q 0) (δ 0) + eVal (q 1) (δ 1) + eVal (q 2) (δ 2) ≤ 1

theorem mem_visits {d : IVec} {q : Vec} {n : ℤ} {x : Bool × ℤ} :
    x ∈ visits d q n ↔ ∃ δ : IVec, (∀ i, |δ i| ≤ n) ∧
      x = (decide (eVal (q 0) (δ 0) + eVal (q 1) (δ 1) + eVal (q 2) (δ 2) ≤ 1), off d δ) := by
  unfold visits
  simp only [List.mem_flatMap, List.mem_map, mem_loop]
  constructor
  · rintro ⟨i, hi, j, hj, k, hk, rfl⟩
    refine ⟨![i, j, k], ?_, rfl⟩
    intro a
    rw [abs_le]
    fin_cases a
    · exact hi
    · exact hj
    · exact hk
  · rintro ⟨δ, hδ, rfl⟩
    exact ⟨δ 0, abs_le.1 (hδ 0), δ 1, abs_le.1 (hδ 1), δ 2, abs_le.1 (hδ 2), rfl⟩

theorem mem_nearOffsets {d : IVec} {q : Vec} {n o : ℤ} :
    o ∈ nearOffsets (visits d q n) ↔ o ≠ 0 ∧ ∃ δ, NearCell q n δ ∧ o = off d δ := by
  unfold nearOffsets
  simp only [List.mem_map, List.mem_filter, Bool.and_eq_true, decide_eq_true_eq]
  constructor
  · rintro ⟨x, ⟨hx, h1, h2⟩, rfl⟩
    obtain ⟨δ, hδ, rfl⟩ := mem_visits.1 hx
    exact ⟨h2, δ, ⟨hδ, by simpa using h1⟩, rfl⟩
  · rintro ⟨h0, δ, ⟨hδ, he⟩, rfl⟩
    exact ⟨_, ⟨mem_visits.2 ⟨δ, hδ, rfl⟩, by simpa using he, h0⟩, rfl⟩

/-- Offsets determine the differences of coordinates. -/
theorem off_inj {d : IVec} {n : ℤ} (hd : ∀ i, 2 * n < d i) {δ ε : IVec} (hδ : ∀ i, |δ i| ≤ n)
    (hε : ∀ i, |ε i| ≤ n) (h : off d δ = off d ε) : δ = ε := by
  have d1 := hd 1
  have d2 := hd 2
  have a0 := abs_le.1 (hδ 0)
  have a1 := abs_le.1 (hδ 1)
  have a2 := abs_le.1 (hδ 2)
  have b0 := abs_le.1 (hε 0)
  have b1 := abs_le.1 (hε 1)
  have b2 := abs_le.1 (hε 2)
  unfold off at h
  have e2 : δ 2 - ε 2 = d 2 * ((ε 0 - δ 0) * d 1 + (ε 1 - δ 1)) := by linarith [mul_comm (d 2) (d 1)]
  have z2 : (ε 0 - δ 0) * d 1 + (ε 1 - δ 1) = 0 := by
    by_contra hne
    have h1 := Int.one_le_abs hne
    have h2 : |δ 2 - ε 2| = d 2 * |(ε 0 - δ 0) * d 1 + (ε 1 - δ 1)| := by
      rw [e2, abs_mul, abs_of_nonneg (by omega)]
    have h3 : |δ 2 - ε 2| ≤ 2 * n := by rw [abs_le]; omega
    nlinarith
  have e1 : δ 1 - ε 1 = d 1 * (ε 0 - δ 0) := by linarith
  have z1 : ε 0 - δ 0 = 0 := by
    by_contra hne
    have h1 := Int.one_le_abs hne
    have h2 : |δ 1 - ε 1| = d 1 * |ε 0 - δ 0| := by
      rw [e1, abs_mul, abs_of_nonneg (by omega)]
    have h3 : |δ 1 - ε 1| ≤ 2 * n := by rw [abs_le]; omega
    nlinarith
  rw [z1] at e1
  rw [z2] at e2
  funext i
  fin_cases i
  · simp only [Fin.zero_eta, Fin.mk_one, Fin.reduceFinMk]; omega
  · simp only [Fin.zero_eta, Fin.mk_one, Fin.reduceFinMk]; omega
  · simp only [Fin.zero_eta, Fin.mk_one, Fin.reduceFinMk]; omega

theorem off_zero (d : IVec) : off d 0 = 0 := by simp [off]

theorem off_neg (d δ : IVec) : off d (-δ) = - off d δ := by simp [off]; ring

theorem off_eq_zero {d : IVec} {n : ℤ} (hd : ∀ i, 2 * n < d i) {δ : IVec} (hδ : ∀ i, |δ i| ≤ n) :
    off d δ = 0 ↔ δ = 0 := by
  have hn : 0 ≤ n := (abs_nonneg _).trans (hδ 0)
  constructor
  · intro h
    exact off_inj hd hδ (by simpa using hn) (by rw [h, off_zero])
  · rintro rfl; exact off_zero d

theorem nodup_nearOffsets {d : IVec} {q : Vec} {n : ℤ} (hd : ∀ i, 2 * n < d i) :
    (nearOffsets (visits d q n)).Nodup := by
  have inj : ∀ i j k i' j' k' : ℤ, (-n ≤ i ∧ i ≤ n) → (-n ≤ j ∧ j ≤ n) → (-n ≤ k ∧ k ≤ n) →
      (-n ≤ i' ∧ i' ≤ n) → (-n ≤ j' ∧ j' ≤ n) → (-n ≤ k' ∧ k' ≤ n) →
      i * (d 2 * d 1) + j * d 2 + k = i' * (d 2 * d 1) + j' * d 2 + k' → i = i' ∧ j = j' ∧ k = k' := by
    intro i j k i' j' k' a1 a2 a3 b1 b2 b3 h
    have e := off_inj hd (δ := ![i, j, k]) (ε := ![i', j', k'])
      (by intro a; rw [abs_le]; fin_cases a <;> assumption)
      (by intro a; rw [abs_le]; fin_cases a <;> assumption) (by simpa [off] using h)
    exact ⟨by simpa using congrFun e 0, by simpa using congrFun e 1, by simpa using congrFun e 2⟩
  have h : ((visits d q n).map Prod.snd).Nodup := by
    unfold visits
    simp only [List.map_flatMap, List.map_map]
    rw [List.nodup_flatMap]
    constructor
    · intro i hi
      rw [mem_loop] at hi
      rw [List.nodup_flatMap]
      constructor
      · intro j hj
        rw [mem_loop] at hj
        refine List.Nodup.map_on ?_ (nodup_loop _ _)
        intro x hx y hy hxy
        rw [mem_loop] at hx hy
        exact (inj _ _ _ _ _ _ hi hj hx hi hj hy hxy).2.2
      · refine List.Nodup.pairwise_of_forall_ne (nodup_loop _ _) ?_
        intro j hj j' hj' hne x hx hx'
        rw [mem_loop] at hj hj'
        obtain ⟨k, hk, rfl⟩ := List.mem_map.1 hx
        obtain ⟨k', hk', e⟩ := List.mem_map.1 hx'
        rw [mem_loop] at hk hk'
        exact hne (inj _ _ _ _ _ _ hi hj hk hi hj' hk' e.symm).2.1
    · refine List.Nodup.pairwise_of_forall_ne (nodup_loop _ _) ?_
      intro i hi i' hi' hne x hx hx'
      rw [mem_loop] at hi hi'
      obtain ⟨j, hj, hx⟩ := List.mem_flatMap.1 hx
      obtain ⟨j', hj', hx'⟩ := List.mem_flatMap.1 hx'
      obtain ⟨k, hk, rfl⟩ := List.mem_map.1 hx
      obtain ⟨k', hk', e⟩ := List.mem_map.1 hx'
      rw [mem_loop] at hj hj' hk hk'
      exact hne (inj _ _ _ _ _ _ hi hj hk hi' hj' hk' e.symm).1
  exact h.sublist (List.Sublist.map _ List.filter_sublist)

/-! ### The cells whose atoms are gathered -/

/-- Cells whose atoms are gathered for local cell `ic`. -/
def nbrCells (s : CL A) (offs : List ℤ) (reverse : Bool) (ic : ℤ) : List ℤ :=
  ic :: (offs.filter fun o => decide (0 < o) || (!reverse && (s.cells (ic + o)).ghost)).map (ic + ·)

theorem loop_shift (ic a b : ℤ) : loop (ic + a) (ic + b) = (loop a b).map (ic + ·) := by
  unfold loop
  rw [List.map_map, show ic + b - (ic + a) + 1 = b - a + 1 by ring]
  apply List.map_congr_left
  intro k _
  simp only [Function.comp]; ring

/-- Every near cell of a local cell exists. -/
theorem near_inGrid {d : IVec} {n : ℤ} {c δ : IVec} (hc : IsLocal d n c) (hδ : ∀ i, |δ i| ≤ n) :
    InGrid d (c + δ) := by
  intro i
  have h1 := hc i
  have h2 := abs_le.1 (hδ i)
  simp only [Pi.add_apply]
  omega

theorem near_range {d : IVec} {n : ℤ} {c δ : IVec} (hc : IsLocal d n c) (hδ : ∀ i, |δ i| ≤ n) :
    0 ≤ cellIndex d (c 0) (c 1) (c 2) + off d δ ∧
      cellIndex d (c 0) (c 1) (c 2) + off d δ < gridSize d := by
  rw [← cellIndex_add]
  exact cellIndex_range (near_inGrid hc hδ)

/-- A cell of the grid is local iff its coordinates are. -/
theorem mem_localCells_index {d : IVec} {n : ℤ} (hn : 0 ≤ n) {c : IVec} (hc : InGrid d c) :
    cellIndex d (c 0) (c 1) (c 2) ∈ localCells d n ↔ IsLocal d n c := by
  rw [mem_localCells]
  constructor
  · rintro ⟨c', h1, h2⟩
    rw [cellIndex_inj hc (h1.inGrid hn) h2]; exact h1
  · intro h; exact ⟨c, h, rfl⟩

/-- The elements of a strip are in one row if there are at least two local cells in a row. -/
theorem strip_row {d : IVec} {n : ℤ} (hd : ∀ i, 2 * n < d i) (hd2 : 2 * n + 1 < d 2) {δ ε : IVec}
    (hδ : ∀ i, |δ i| ≤ n) (hε : ∀ i, |ε i| ≤ n) (h : off d ε = off d δ + 1) :
    ε 0 = δ 0 ∧ ε 1 = δ 1 ∧ ε 2 = δ 2 + 1 := by
  have d1 := hd 1
  have a1 := abs_le.1 (hδ 1)
  have a2 := abs_le.1 (hδ 2)
  have b1 := abs_le.1 (hε 1)
  have b2 := abs_le.1 (hε 2)
  unfold off at h
  have e2 : δ 2 + 1 - ε 2 = d 2 * ((ε 0 - δ 0) * d 1 + (ε 1 - δ 1)) := by
    linarith [mul_comm (d 2) (d 1)]
  have z2 : (ε 0 - δ 0) * d 1 + (ε 1 - δ 1) = 0 := by
    by_contra hne
    have h1 := Int.one_le_abs hne
    have h2 : |δ 2 + 1 - ε 2| = d 2 * |(ε 0 - δ 0) * d 1 + (ε 1 - δ 1)| := by
      rw [e2, abs_mul, abs_of_nonneg (by omega)]
    have h3 : |δ 2 + 1 - ε 2| ≤ 2 * n + 1 := by rw [abs_le]; omega
    nlinarith
  have e1 : δ 1 - ε 1 = d 1 * (ε 0 - δ 0) := by linarith
  have z1 : ε 0 - δ 0 = 0 := by
    by_contra hne
    have h1 := Int.one_le_abs hne
    have h2 : |δ 1 - ε 1| = d 1 * |ε 0 - δ 0| := by
      rw [e1, abs_mul, abs_of_nonneg (by omega)]
    have h3 : |δ 1 - ε 1| ≤ 2 * n := by rw [abs_le]; omega
    nlinarith
  rw [z1] at e1
  rw [z2] at e2
  omega

/-- All elements of a run of offsets lie in the row of the first. -/
theorem run_row {d : IVec} {n : ℤ} {q : Vec} (hd : ∀ i, 2 * n < d i) (hd2 : 2 * n + 1 < d 2)
    {a b : ℤ} (hab : a ≤ b) (h : ∀ o, a ≤ o → o ≤ b → ∃ δ, NearCell q n δ ∧ o = off d δ) :
    ∃ i j k, ∀ o, a ≤ o → o ≤ b → ∃ δ, NearCell q n δ ∧ o = off d δ ∧ δ 0 = i ∧ δ 1 = j ∧
      δ 2 = k + (o - a) := by
  obtain ⟨δ0, h0, e0⟩ := h a le_rfl hab
  refine ⟨δ0 0, δ0 1, δ0 2, ?_⟩
  intro o ho1
  obtain ⟨m, rfl⟩ : ∃ m : ℕ, o = a + m := ⟨(o - a).toNat, by omega⟩
  induction m with
  | zero => intro _; exact ⟨δ0, h0, by simpa using e0, rfl, rfl, by simp⟩
  | succ m ih =>
    intro ho2
    push_cast at ho2 ⊢
    obtain ⟨δ, i1, i2, i3, i4, i5⟩ := ih (by omega) (by omega)
    obtain ⟨ε, j1, j2⟩ := h (a + (m + 1)) (by omega) (by omega)
    obtain ⟨r0, r1, r2⟩ := strip_row hd hd2 i1.1 j1.1 (by rw [← j2, ← i2]; ring)
    exact ⟨ε, j1, j2, by rw [r0, i3], by rw [r1, i4], by rw [r2, i5]; ring⟩

/-- **The neighbour array** contains the atoms of the cells of `nbrCells`, in order. -/
theorem nbrList_eq {s : CL A} {lower upper cut : Vec} {n : ℤ} (h : Built s)
    (hm : Made s lower upper cut n) (reverse : Bool)
    (hz : reverse = true ∨ 2 * n ≤ axisDim (upper 2 - lower 2) (cut 2) n)
    {c : IVec} (hc : IsLocal s.dim n c) :
    s.nbrList reverse (cellIndex s.dim (c 0) (c 1) (c 2)) =
      (nbrCells s (nearOffsets (visits s.dim (fun i => s.len i / cut i) n)) reverse
        (cellIndex s.dim (c 0) (c 1) (c 2))).flatMap (inCell s.tags) := by
  have hn := hm.one_le
  have hnc := hm.nCut
  have hd : ∀ i, 2 * n < s.dim i := by rw [← hnc]; exact h.link.dim
  obtain ⟨r, hr, hgood, hexp⟩ := makeOffsets_spec s.dim (fun i => s.len i / cut i) n
  have hsz := h.link.size
  set ic := cellIndex s.dim (c 0) (c 1) (c 2) with hic
  have hic0 : 0 ≤ ic ∧ ic < s.size := by rw [hsz]; exact cellIndex_range (hc.inGrid (by omega))
  have hin : ∀ o ∈ r, ∀ x, o.1 ≤ x → x ≤ o.2 →
      ∃ δ, NearCell (fun i => s.len i / cut i) n δ ∧ x = off s.dim δ := by
    intro o ho x h1 h2
    have : x ∈ nearOffsets (visits s.dim (fun i => s.len i / cut i) n) := by
      rw [← hexp, List.mem_flatMap]
      exact ⟨o, ho, mem_loop.2 ⟨h1, h2⟩⟩
    exact (mem_nearOffsets.1 this).2
  have hrange : ∀ o ∈ r, ∀ x, o.1 ≤ x → x ≤ o.2 → 0 ≤ ic + x ∧ ic + x < s.size := by
    intro o ho x h1 h2
    obtain ⟨δ, hδ, rfl⟩ := hin o ho x h1 h2
    rw [hsz]
    exact near_range hc hδ.1
  have hself : s.stripAtoms reverse ic (0, 0) = inCell s.tags ic := by
    unfold CL.stripAtoms CL.range
    simp only [add_zero, ge_iff_le, le_refl, if_true]
    rw [strip_eq h hic0.1 le_rfl hic0.2, loop_self]
    simp
  have hstrip : ∀ o ∈ r, s.stripAtoms reverse ic o = (((expand o).filter fun o => decide (0 < o) ||
        (!reverse && (s.cells (ic + o)).ghost)).map (ic + ·)).flatMap (inCell s.tags) := by
    intro o ho
    obtain ⟨g1, g2⟩ := hgood o ho
    have rb := hrange o ho o.1 le_rfl g1
    have re := hrange o ho o.2 g1 le_rfl
    unfold CL.stripAtoms CL.range
    simp only
    rw [h.link.ids _ rb.1 rb.2, h.link.ids _ hic0.1 hic0.2]
    rcases g2 with g2 | g2
    · rw [if_neg (by omega)]
      have neg : ∀ x ∈ expand o, decide (0 < x) = false := by
        intro x hx
        have := mem_loop.1 hx
        simp; omega
      cases hrev : reverse with
      | true =>
        have : ((expand o).filter fun o => decide (0 < o) || (!true && (s.cells (ic + o)).ghost)) = [] := by
          rw [List.filter_eq_nil_iff]
          intro x hx
          rw [neg x hx]; simp
        rw [this]; simp
      | false =>
        rw [hrev] at hz
        have hz' : 2 * n ≤ axisDim (upper 2 - lower 2) (cut 2) n := by
          rcases hz with hz | hz
          · simp at hz
          · exact hz
        have hfil : ((expand o).filter fun o => decide (0 < o) || (!false && (s.cells (ic + o)).ghost)) =
            (expand o).filter fun o => (s.cells (ic + o)).ghost := by
          apply List.filter_congr
          intro x hx
          rw [neg x hx]; simp
        rw [hfil]
        have hmap : ((expand o).filter fun o => (s.cells (ic + o)).ghost).map (ic + ·) =
            (loop (ic + o.1) (ic + o.2)).filter fun k => (s.cells k).ghost := by
          rw [loop_shift, List.filter_map]; rfl
        rw [hmap]
        simp only [Bool.false_eq_true, if_false]
        have hd2 : 2 * n + 1 < s.dim 2 := by rw [hm.dim 2]; omega
        obtain ⟨i, j, k, hrow⟩ := run_row hd hd2 g1 (hin o ho)
        -- ghost cells of the strip
        have hgh : ∀ x, o.1 ≤ x → x ≤ o.2 → ((s.cells (ic + x)).ghost = true ↔
            ¬ ((n ≤ c 0 + i ∧ c 0 + i < s.dim 0 - n) ∧ (n ≤ c 1 + j ∧ c 1 + j < s.dim 1 - n) ∧
              (n ≤ c 2 + (k + (x - o.1)) ∧ c 2 + (k + (x - o.1)) < s.dim 2 - n))) := by
          intro x h1 h2
          obtain ⟨δ, i1, i2, i3, i4, i5⟩ := hrow x h1 h2
          have hx := hrange o ho x h1 h2
          have hgr := near_inGrid hc i1.1
          rw [← Bool.not_eq_false, not_iff_not, h.link.ghost _ hx.1 hx.2, hnc, i2, hic,
            ← cellIndex_add]
          rw [show cellIndex s.dim (c 0 + δ 0) (c 1 + δ 1) (c 2 + δ 2) =
            cellIndex s.dim ((c + δ) 0) ((c + δ) 1) ((c + δ) 2) from rfl,
            mem_localCells_index (by omega) hgr]
          rw [← i3, ← i4, ← i2, ← i5]
          constructor
          · intro h; exact ⟨h 0, h 1, h 2⟩
          · rintro ⟨h0, h1, h2⟩ a
            fin_cases a
            · exact h0
            · exact h1
            · exact h2
        have hk : ∀ x, o.1 ≤ x → x ≤ o.2 → |k + (x - o.1)| ≤ n := by
          intro x h1 h2
          obtain ⟨δ, i1, i2, i3, i4, i5⟩ := hrow x h1 h2
          rw [← i5]; exact i1.1 2
        have hconv : ∀ x y z, ic + o.1 ≤ x → x ≤ y → y ≤ z → z ≤ ic + o.2 →
            (s.cells x).ghost = true → (s.cells z).ghost = true → (s.cells y).ghost = true := by
          intro x y z h1 h2 h3 h4 gx gz
          have ex : x = ic + (x - ic) := by ring
          have ey : y = ic + (y - ic) := by ring
          have ez : z = ic + (z - ic) := by ring
          rw [ex, hgh _ (by omega) (by omega)] at gx
          rw [ez, hgh _ (by omega) (by omega)] at gz
          rw [ey, hgh _ (by omega) (by omega)]
          have kx := abs_le.1 (hk (x - ic) (by omega) (by omega))
          have kz := abs_le.1 (hk (z - ic) (by omega) (by omega))
          have hc2 := hc 2
          have hdim := hm.dim 2
          omega
        by_cases hg : (s.cells (ic + o.1)).ghost = true ∨ (s.cells (ic + o.2)).ghost = true
        · rw [if_pos hg]
          obtain ⟨t1, t2, t3, t4⟩ := trim_eq s.cells (b := ic + o.1) (e := ic + o.2) (by omega) hg hconv
          rw [t1]
          exact strip_eq h (by omega) t4 (by omega)
        · rw [if_neg hg]
          push Not at hg
          have : ((loop (ic + o.1) (ic + o.2)).filter fun k => (s.cells k).ghost) = [] := by
            rw [List.filter_eq_nil_iff]
            intro y hy
            rw [mem_loop] at hy
            intro gy
            have ey : y = ic + (y - ic) := by ring
            rw [ey, hgh _ (by omega) (by omega)] at gy
            have g1' := hg.1
            have g2' := hg.2
            rw [ne_eq, hgh _ le_rfl (by omega)] at g1'
            rw [ne_eq, hgh _ (by omega) le_rfl] at g2'
            omega
          rw [this]; rfl
    · rw [if_pos (by omega)]
      have : ((expand o).filter fun o => decide (0 < o) || (!reverse && (s.cells (ic + o)).ghost)) =
          expand o := by
        rw [List.filter_eq_self]
        intro x hx
        have := mem_loop.1 hx
        have : 0 < x := by omega
        simp [this]
      rw [this]
      simp only
      rw [strip_eq h rb.1 (by omega) re.2, loop_shift]; rfl
  unfold CL.nbrList nbrCells
  rw [hm.offsets, hr, List.flatMap_cons, hself, List.flatMap_cons]
  congr 1
  rw [← hexp]
  clear hr hexp
  induction r with
  | nil => simp
  | cons o r ih =>
    rw [List.flatMap_cons, List.flatMap_cons, List.filter_append, List.map_append, List.flatMap_append,
      hstrip o (by simp), ih (fun o ho => hgood o (by simp [ho])) (fun o ho => hin o (by simp [ho]))
        (fun o ho => hrange o (by simp [ho])) (fun o ho => hstrip o (by simp [ho]))]

theorem mem_nbrCells {s : CL A} {offs : List ℤ} {reverse : Bool} {ic k : ℤ} :
    k ∈ nbrCells s offs reverse ic ↔ k = ic ∨ (k - ic ∈ offs ∧
      (ic < k ∨ (reverse = false ∧ (s.cells k).ghost = true))) := by
  unfold nbrCells
  simp only [List.mem_cons, List.mem_map, List.mem_filter, Bool.or_eq_true, decide_eq_true_eq,
    Bool.and_eq_true, Bool.not_eq_true']
  constructor
  · rintro (h | ⟨o, ⟨h1, h2⟩, rfl⟩)
    · exact Or.inl h
    · refine Or.inr ⟨by simpa using h1, ?_⟩
      rcases h2 with h2 | h2
      · left; omega
      · right; exact h2
  · rintro (h | ⟨h1, h2⟩)
    · exact Or.inl h
    · refine Or.inr ⟨k - ic, ⟨h1, ?_⟩, by ring⟩
      rcases h2 with h2 | h2
      · left; omega
      · right; rw [show ic + (k - ic) = k by ring]; exact h2

theorem nodup_nbrCells {s : CL A} {offs : List ℤ} (h : offs.Nodup) (h0 : (0 : ℤ) ∉ offs)
    (reverse : Bool) (ic : ℤ) : (nbrCells s offs reverse ic).Nodup := by
  unfold nbrCells
  rw [List.nodup_cons]
  constructor
  · rw [List.mem_map]
    rintro ⟨o, ho, e⟩
    have : o = 0 := by omega
    exact h0 (this ▸ (List.mem_filter.1 ho).1)
  · exact (h.filter _).map (fun a b e => by simpa using e)

end Verif.DdCellList
