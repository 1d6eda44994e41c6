import Verif.DdCellList.Link

/-! # Placing atoms and building the cells -/

set_option autoImplicit false

namespace Verif.DdCellList

open Verif.Boundary Verif.Cpp Verif.McCellList

variable {A : Type}

/-- Coordinates of the cell of a position. -/
noncomputable def CL.coord (s : CL A) (x : Vec) : IVec :=
  fun i => ⌊(x i - s.lowerOuter i) / s.len i⌋

/-- The position is in the extended domain. -/
def CL.Inside (s : CL A) (x : Vec) : Prop := ∀ i, s.lowerOuter i < x i ∧ x i < s.upperOuter i

section Made

variable {s : CL A} {lower upper cut : Vec} {n : ℤ}

theorem Made.one_le (h : Made s lower upper cut n) : 1 ≤ n := h.nCut ▸ h.link.n

theorem Made.m_pos (h : Made s lower upper cut n) (i : Fin 3) :
    0 < axisDim (upper i - lower i) (cut i) n := by
  have := h.link.dim i
  rw [h.dim i, h.nCut] at this
  omega

theorem Made.len_pos (h : Made s lower upper cut n) (hc : ∀ i, 0 < cut i) (i : Fin 3) :
    0 < s.len i := by
  rw [h.len i]
  have h1 := h.cutLe i
  have h2 := hc i
  have h3 : (0 : ℝ) < axisDim (upper i - lower i) (cut i) n := by exact_mod_cast h.m_pos i
  exact div_pos (by linarith) h3

theorem Made.upper_eq (h : Made s lower upper cut n) (i : Fin 3) :
    upper i - lower i = s.len i * (axisDim (upper i - lower i) (cut i) n : ℝ) := by
  rw [h.len i]
  have h3 : (0 : ℝ) < axisDim (upper i - lower i) (cut i) n := by exact_mod_cast h.m_pos i
  field_simp

theorem Made.coord_inGrid (h : Made s lower upper cut n) (hc : ∀ i, 0 < cut i) {x : Vec}
    (hx : s.Inside x) : InGrid s.dim (s.coord x) := by
  intro i
  obtain ⟨h1, h2⟩ := hx i
  have hl := h.len_pos hc i
  unfold CL.coord
  constructor
  · rw [Int.floor_nonneg]
    exact div_nonneg (by linarith) hl.le
  · rw [Int.floor_lt, div_lt_iff₀ hl, h.dim i]
    rw [h.upperOuter i] at h2
    have hu := h.upper_eq i
    rw [h.lowerOuter i]
    push_cast
    nlinarith

theorem Made.index_eq (h : Made s lower upper cut n) (hc : ∀ i, 0 < cut i) (x : Vec)
    (hx : s.Inside x) : s.cellIndexFromPosition x =
      some (cellIndex s.dim (s.coord x 0) (s.coord x 1) (s.coord x 2)) := by
  unfold CL.cellIndexFromPosition
  rw [if_neg]
  · have e : (fun i => trunc ((x i - s.lowerOuter i) / s.len i)) = s.coord x := by
      funext i
      unfold CL.coord
      rw [trunc_of_nonneg]
      exact div_nonneg (by linarith [(hx i).1]) (h.len_pos hc i).le
    simp only [congrFun e]
  · rintro ⟨i, hi⟩
    have := hx i
    rcases hi with hi | hi <;> linarith

end Made

theorem index_none {s : CL A} {x : Vec} (hx : ¬ s.Inside x) : s.cellIndexFromPosition x = none := by
  unfold CL.cellIndexFromPosition
  rw [if_pos]
  unfold CL.Inside at hx
  push Not at hx
  obtain ⟨i, hi⟩ := hx
  refine ⟨i, ?_⟩
  rcases lt_or_ge (s.lowerOuter i) (x i) with h | h
  · exact Or.inr (hi h)
  · exact Or.inl h

/-! ### Placing -/

/-- Number of tags of a cell. -/
def cnt (T : List (A × ℤ)) (k : ℤ) : ℕ := T.countP fun t => decide (t.2 = k)

/-- Number of tags of cells before `k`. -/
def pre (T : List (A × ℤ)) (k : ℤ) : ℕ := T.countP fun t => decide (t.2 < k)

/-- Atoms of a cell, in the order in which they were placed. -/
def inCell (T : List (A × ℤ)) (k : ℤ) : List (Option A) :=
  (T.filter fun t => decide (t.2 = k)).map fun t => some t.1

theorem length_inCell (T : List (A × ℤ)) (k : ℤ) : (inCell T k).length = cnt T k := by
  unfold inCell cnt
  rw [List.length_map, List.countP_eq_length_filter]

theorem pre_succ (T : List (A × ℤ)) (k : ℤ) : pre T (k + 1) = pre T k + cnt T k := by
  unfold pre cnt
  induction T with
  | nil => rfl
  | cons t T ih =>
    simp only [List.countP_cons, ih]
    rcases lt_trichotomy t.2 k with h | h | h
    · simp [h, h.ne, (by omega : t.2 < k + 1)]; omega
    · simp [h]; omega
    · have h1 : ¬ t.2 < k + 1 := by omega
      have h2 : ¬ t.2 < k := by omega
      simp [h1, h2, h.ne']

/-- State after `clear` and some calls of `placeAtom`. -/
structure Placed (s : CL A) : Prop where
  link : LinkOK s
  tags : ∀ t ∈ s.tags, 0 ≤ t.2 ∧ t.2 < s.size
  cells : ∀ k, 0 ≤ k → k < s.size →
    (s.cells k).begin' = none ∧ (s.cells k).nAtom = 0 ∧ (s.cells k).cap = cnt s.tags k

/-- The parameters set by `makeGrid` are the same. -/
structure SameGrid (s t : CL A) : Prop where
  lower : t.lower = s.lower
  upper : t.upper = s.upper
  lowerOuter : t.lowerOuter = s.lowerOuter
  upperOuter : t.upperOuter = s.upperOuter
  len : t.len = s.len
  offsets : t.offsets = s.offsets
  topo : SameTopo s t

theorem SameGrid.refl (s : CL A) : SameGrid s s := ⟨rfl, rfl, rfl, rfl, rfl, rfl, SameTopo.refl s⟩

theorem SameGrid.trans {s t u : CL A} (h : SameGrid s t) (g : SameGrid t u) : SameGrid s u :=
  ⟨g.1.trans h.1, g.2.trans h.2, g.3.trans h.3, g.4.trans h.4, g.5.trans h.5, g.6.trans h.6,
    h.7.trans g.7⟩

theorem SameGrid.made {s t : CL A} {lower upper cut : Vec} {n : ℤ} (h : SameGrid s t)
    (hs : Made s lower upper cut n) : Made t lower upper cut n := by
  refine ⟨h.topo.link hs.link, by rw [h.topo.nCut]; exact hs.nCut, hs.n4, ?_, ?_, ?_, ?_, hs.cutLe, ?_⟩
  · rw [h.topo.dim]; exact hs.dim
  · rw [h.len]; exact hs.len
  · rw [h.lowerOuter, h.len]; exact hs.lowerOuter
  · rw [h.upperOuter, h.len]; exact hs.upperOuter
  · rw [h.offsets, h.topo.dim, h.len]; exact hs.offsets

theorem SameGrid.index {s t : CL A} (h : SameGrid s t) (x : Vec) :
    t.cellIndexFromPosition x = s.cellIndexFromPosition x := by
  unfold CL.cellIndexFromPosition
  rw [h.lowerOuter, h.upperOuter, h.len, h.topo.dim]

theorem clear_ok {s : CL A} (h : LinkOK s) :
    ∃ t, s.clear = .ok t ∧ Placed t ∧ SameGrid s t ∧ t.tags = [] ∧ t.nReject = 0 ∧
      t.atomCap = s.atomCap := by
  unfold CL.clear
  rw [if_neg (by have := h.size; omega)]
  have hg : SameGrid s { s with
      cells := fun k => if 0 ≤ k ∧ k < gridSize s.dim then
        { s.cells k with begin' := none, nAtom := 0, cap := 0 } else s.cells k
      tags := [], nReject := 0, built := false } := by
    refine ⟨rfl, rfl, rfl, rfl, rfl, rfl, rfl, rfl, rfl, rfl, ?_⟩
    intro k
    simp only
    split_ifs <;> exact ⟨rfl, rfl, rfl⟩
  refine ⟨_, rfl, ⟨hg.topo.link h, by simp, ?_⟩, hg, rfl, rfl, rfl⟩
  intro k h0 h1
  simp only at h1 ⊢
  rw [h.size] at h1
  rw [if_pos ⟨h0, h1⟩]
  exact ⟨rfl, rfl, rfl⟩

theorem place_ok {s : CL A} {lower upper cut : Vec} {n : ℤ} (h : Placed s)
    (hm : Made s lower upper cut n) (hc : ∀ i, 0 < cut i) (a : A) (x : Vec)
    (hcap : s.tags.length < s.atomCap) :
    ∃ t, s.placeAtom a x = .ok t ∧ Placed t ∧ SameGrid s t ∧ t.atomCap = s.atomCap ∧
      t.tags = s.tags ++ ((s.cellIndexFromPosition x).map fun k => (a, k)).toList ∧
      t.nReject = s.nReject + (if s.cellIndexFromPosition x = none then 1 else 0) := by
  unfold CL.placeAtom
  rw [if_neg (by simpa using hcap)]
  by_cases hx : s.Inside x
  · have hi := hm.index_eq hc x hx
    have hr := cellIndex_range (hm.coord_inGrid hc hx)
    rw [hi]
    generalize cellIndex s.dim (s.coord x 0) (s.coord x 1) (s.coord x 2) = k at *
    have hk : 0 ≤ k ∧ k < s.size := ⟨hr.1, by rw [h.link.size]; exact hr.2⟩
    have hck := h.cells k hk.1 hk.2
    simp only
    rw [if_neg (by simp [hck.1])]
    have hg : SameGrid s { s with
        tags := s.tags ++ [(a, k)]
        cells := Function.update s.cells k { s.cells k with cap := (s.cells k).cap + 1 } } := by
      refine ⟨rfl, rfl, rfl, rfl, rfl, rfl, rfl, rfl, rfl, rfl, ?_⟩
      intro j
      by_cases hj : j = k
      · subst hj; simp only [Function.update_self, and_self]
      · simp only [Function.update_of_ne hj, and_self]
    refine ⟨_, rfl, ⟨hg.topo.link h.link, ?_, ?_⟩, ?_, rfl, ?_, ?_⟩
    · intro t ht
      rcases List.mem_append.1 ht with ht | ht
      · exact h.tags t ht
      · rw [List.mem_singleton.1 ht]; exact hk
    · intro j h0 h1
      have hj := h.cells j h0 h1
      simp only
      by_cases hjk : j = k
      · subst hjk
        rw [Function.update_self]
        refine ⟨hj.1, hj.2.1, ?_⟩
        simp only [hj.2.2, cnt, List.countP_append]
        simp
      · rw [Function.update_of_ne hjk]
        refine ⟨hj.1, hj.2.1, ?_⟩
        rw [hj.2.2]
        simp only [cnt, List.countP_append]
        have : (k = j) ↔ False := ⟨fun e => hjk e.symm, False.elim⟩
        simp [this]
    · exact hg
    · simp
    · simp
  · rw [index_none hx]
    refine ⟨_, rfl, ⟨SameTopo.link (s := s) ⟨rfl, rfl, rfl, rfl, fun k => ⟨rfl, rfl, rfl⟩⟩ h.link, h.tags, h.cells⟩,
      ⟨rfl, rfl, rfl, rfl, rfl, rfl, ⟨rfl, rfl, rfl, rfl, fun k => ⟨rfl, rfl, rfl⟩⟩⟩, rfl, ?_, ?_⟩
    · simp
    · simp

/-- Tags of the atoms that are in the extended domain. -/
noncomputable def tagsOf (s : CL A) (atoms : List (A × Vec)) : List (A × ℤ) :=
  atoms.flatMap fun a => ((s.cellIndexFromPosition a.2).map fun k => (a.1, k)).toList

theorem placeAll_ok {lower upper cut : Vec} {n : ℤ} (hc : ∀ i, 0 < cut i) (atoms : List (A × Vec))
    {s : CL A} (h : Placed s) (hm : Made s lower upper cut n)
    (hcap : s.tags.length + atoms.length ≤ s.atomCap) :
    ∃ t, atoms.foldlM (fun (s : CL A) a => s.placeAtom a.1 a.2) s = .ok t ∧ Placed t ∧
      SameGrid s t ∧ t.atomCap = s.atomCap ∧ t.tags = s.tags ++ tagsOf s atoms ∧
      t.nReject + t.tags.length = s.nReject + s.tags.length + atoms.length := by
  induction atoms generalizing s with
  | nil => exact ⟨s, rfl, h, SameGrid.refl s, rfl, by simp [tagsOf], by simp⟩
  | cons a atoms ih =>
    rw [List.length_cons] at hcap
    obtain ⟨t, h1, h2, h3, h4, h5, h6⟩ := place_ok h hm hc a.1 a.2 (by omega)
    have hlen : t.tags.length ≤ s.tags.length + 1 := by
      rw [h5, List.length_append]
      cases s.cellIndexFromPosition a.2 <;> simp
    obtain ⟨u, u1, u2, u3, u4, u5, u6⟩ := ih h2 (h3.made hm) (by rw [h4]; omega)
    refine ⟨u, ?_, u2, h3.trans u3, u4.trans h4, ?_, ?_⟩
    · rw [List.foldlM_cons, h1]; exact u1
    · rw [u5, h5, List.append_assoc]
      unfold tagsOf
      rw [List.flatMap_cons]
      simp only [h3.index]
    · rw [u6, h6, h5, List.length_append, List.length_cons]
      cases s.cellIndexFromPosition a.2 <;> simp <;> omega

/-! ### Building -/

theorem initCells_ok (T : List (A × ℤ)) (f : ℕ) (k : ℤ) (cells : ℤ → Cell)
    (h : ∀ j, k ≤ j → j < k + f → (cells j).begin' = none ∧ (cells j).nAtom = 0 ∧
      (cells j).cap = cnt T j) :
    ∃ c', initCells f k (pre T k) cells = .ok c' ∧
      (∀ j, k ≤ j → j < k + f → c' j = { cells j with begin' := some (pre T j) }) ∧
      ∀ j, ¬ (k ≤ j ∧ j < k + f) → c' j = cells j := by
  induction f generalizing k cells with
  | zero => exact ⟨cells, rfl, fun j h1 h2 => by omega, fun _ _ => rfl⟩
  | succ f ih =>
    have hk := h k le_rfl (by omega)
    unfold initCells
    rw [if_neg (by simp [hk.1, hk.2.1]), hk.2.2, ← pre_succ]
    obtain ⟨c', h1, h2, h3⟩ := ih (k + 1) (Function.update cells k { cells k with begin' := some (pre T k) })
      (fun j a b => by rw [Function.update_of_ne (by omega)]; exact h j (by omega) (by omega))
    have key : (∀ j, k ≤ j → j < k + (f + 1 : ℕ) → c' j = { cells j with begin' := some (pre T j) }) ∧
      ∀ j, ¬ (k ≤ j ∧ j < k + (f + 1 : ℕ)) → c' j = cells j := by
      constructor
      · intro j a b
        by_cases hj : j = k
        · subst hj; rw [h3 j (by omega), Function.update_self]
        · rw [h2 j (by omega) (by omega), Function.update_of_ne hj]
      · intro j hj
        rw [h3 j (by omega), Function.update_of_ne (by rintro rfl; omega)]
    refine ⟨c', ?_, key⟩
    exact h1

/-- State after the tags `T1` out of `T` have been processed. -/
structure Filled (T T1 : List (A × ℤ)) (size : ℤ) (c0 : ℤ → Cell)
    (r : (ℤ → Cell) × (ℕ → Option A)) : Prop where
  cells : ∀ k, 0 ≤ k → k < size → r.1 k =
    { c0 k with begin' := some (pre T k), nAtom := cnt T1 k, cap := cnt T k }
  other : ∀ k, ¬ (0 ≤ k ∧ k < size) → r.1 k = c0 k
  atoms : ∀ k, 0 ≤ k → k < size → ∀ j, j < cnt T1 k → some (r.2 (pre T k + j)) = (inCell T1 k)[j]?

theorem pre_mono (T : List (A × ℤ)) {j k : ℤ} (h : j ≤ k) : pre T j ≤ pre T k := by
  obtain ⟨m, rfl⟩ : ∃ m : ℕ, k = j + m := ⟨(k - j).toNat, by omega⟩
  induction m with
  | zero => simp
  | succ m ih =>
    have e : j + ((m + 1 : ℕ) : ℤ) = (j + m) + 1 := by push_cast; ring
    rw [e, pre_succ]
    have := ih (by omega)
    omega

theorem inCell_append (T1 T2 : List (A × ℤ)) (k : ℤ) :
    inCell (T1 ++ T2) k = inCell T1 k ++ inCell T2 k := by
  unfold inCell; rw [List.filter_append, List.map_append]

theorem fill_ok {T : List (A × ℤ)} {size : ℤ} {c0 : ℤ → Cell}
    (hT : ∀ t ∈ T, 0 ≤ t.2 ∧ t.2 < size) (T2 T1 : List (A × ℤ)) (hs : T = T1 ++ T2)
    (r : (ℤ → Cell) × (ℕ → Option A)) (h : Filled T T1 size c0 r) :
    ∃ r', T2.foldlM appendTag r = .ok r' ∧ Filled T T size c0 r' := by
  induction T2 generalizing T1 r with
  | nil => rw [List.append_nil] at hs; subst hs; exact ⟨r, rfl, h⟩
  | cons t T2 ih =>
    have ht := hT t (by rw [hs]; simp)
    have hc := h.cells t.2 ht.1 ht.2
    have hlt : cnt T1 t.2 < cnt T t.2 := by
      rw [hs]; unfold cnt; rw [List.countP_append, List.countP_cons]; simp
    have hcnt : ∀ k, cnt (T1 ++ [t]) k = cnt T1 k + if t.2 = k then 1 else 0 := by
      intro k; unfold cnt; rw [List.countP_append, List.countP_cons]; simp
    have hcell : ∀ k, inCell (T1 ++ [t]) k = inCell T1 k ++ if t.2 = k then [some t.1] else [] := by
      intro k
      rw [inCell_append]
      congr 1
      unfold inCell
      by_cases e : t.2 = k <;> simp [e]
    have hstep : appendTag r t = .ok (Function.update r.1 t.2 { r.1 t.2 with nAtom := cnt T1 t.2 + 1 },
        Function.update r.2 (pre T t.2 + cnt T1 t.2) (some t.1)) := by
      unfold appendTag
      simp only [hc, hlt, not_true_eq_false, if_false]
    obtain ⟨r', e1, e2⟩ := ih (T1 ++ [t]) (by rw [hs]; simp)
      (Function.update r.1 t.2 { r.1 t.2 with nAtom := cnt T1 t.2 + 1 },
        Function.update r.2 (pre T t.2 + cnt T1 t.2) (some t.1)) (by
      refine ⟨?_, ?_, ?_⟩
      · intro k h0 h1
        simp only
        by_cases hk : k = t.2
        · subst hk
          rw [Function.update_self, hc, hcnt]; simp
        · rw [Function.update_of_ne hk, h.cells k h0 h1, hcnt, if_neg (fun e => hk e.symm), add_zero]
      · intro k hk
        simp only
        rw [Function.update_of_ne (by rintro rfl; exact hk ht), h.other k hk]
      · intro k h0 h1 j hj
        simp only
        rw [hcell]
        rw [hcnt] at hj
        by_cases hk : t.2 = k
        · subst hk
          rw [if_pos rfl] at hj ⊢
          by_cases hj' : j = cnt T1 t.2
          · subst hj'
            rw [Function.update_self, List.getElem?_append_right (by rw [length_inCell]), length_inCell]
            simp
          · rw [Function.update_of_ne (by omega), h.atoms t.2 h0 h1 j (by omega),
              List.getElem?_append_left (by rw [length_inCell]; omega)]
        · rw [if_neg hk, add_zero] at hj
          rw [if_neg hk, List.append_nil, Function.update_of_ne, h.atoms k h0 h1 j hj]
          intro e
          rcases lt_or_gt_of_ne hk with hlt' | hlt'
          · have a1 := pre_mono T (show t.2 + 1 ≤ k by omega)
            rw [pre_succ] at a1
            omega
          · have a1 := pre_mono T (show k + 1 ≤ t.2 by omega)
            rw [pre_succ] at a1
            have a2 : cnt T1 k ≤ cnt T k := by
              rw [hs]; unfold cnt; rw [List.countP_append]; omega
            omega)
    refine ⟨r', ?_, e2⟩
    rw [List.foldlM_cons, hstep]; exact e1

/-- State after `build`. -/
structure Built (s : CL A) : Prop where
  link : LinkOK s
  built : s.built = true
  cells : ∀ k, 0 ≤ k → k < s.size →
    (s.cells k).begin' = some (pre s.tags k) ∧ (s.cells k).nAtom = cnt s.tags k
  atoms : ∀ k, 0 ≤ k → k < s.size → ∀ j, j < cnt s.tags k →
    some (s.atoms (pre s.tags k + j)) = (inCell s.tags k)[j]?

theorem build_ok {s : CL A} (h : Placed s) (hcap : s.atomCap ≠ 0) :
    ∃ t, s.build = .ok t ∧ Built t ∧ SameGrid s t ∧ t.tags = s.tags ∧ t.nReject = s.nReject ∧
      t.atomCap = s.atomCap := by
  unfold CL.build
  rw [if_neg (by have := h.link.size; omega), if_neg hcap]
  have hsz := gridSize_ge h.link.n h.link.dim
  have hpre0 : pre s.tags 0 = 0 := by
    unfold pre
    rw [List.countP_eq_zero]
    intro t ht
    have := h.tags t ht
    simp; omega
  obtain ⟨c', h1, h2, h3⟩ := initCells_ok s.tags (gridSize s.dim).toNat 0 s.cells
    (fun j a b => h.cells j a (by rw [h.link.size]; omega))
  rw [hpre0] at h1
  rw [h1]
  have hf : Filled s.tags [] s.size s.cells (c', s.atoms) := by
    refine ⟨?_, ?_, ?_⟩
    · intro k a b
      have hk := h.cells k a b
      change c' k = _
      rw [h2 k a (by rw [h.link.size] at b; omega)]
      simp only [hk.2.1, hk.2.2]
      rfl
    · intro k hk
      change c' k = _
      rw [h3 k (by rw [h.link.size] at hk; omega)]
    · intro k _ _ j hj
      simp [cnt] at hj
  obtain ⟨r, e1, e2⟩ := fill_ok h.tags s.tags [] rfl _ hf
  simp only [Except.bind, e1]
  have hg : SameGrid s { s with cells := r.1, atoms := r.2, built := true } := by
    refine ⟨rfl, rfl, rfl, rfl, rfl, rfl, rfl, rfl, rfl, rfl, ?_⟩
    intro k
    by_cases hk : 0 ≤ k ∧ k < s.size
    · simp only [e2.cells k hk.1 hk.2]; exact ⟨trivial, trivial, trivial⟩
    · simp only [e2.other k hk]; exact ⟨trivial, trivial, trivial⟩
  refine ⟨_, rfl, ⟨hg.topo.link h.link, rfl, ?_, ?_⟩, hg, rfl, rfl, rfl⟩
  · intro k a b
    have := e2.cells k a b
    simp only [this]; exact ⟨trivial, trivial⟩
  · intro k a b j hj
    exact e2.atoms k a b j hj

/-- **Correctness of `buildCellList`.** From any state that satisfies the invariant, the call
succeeds, and each cell contains the atoms whose position is in the cell. -/
theorem buildAll_ok {s : CL A} (h : Inv s) (totalCap : ℕ) (hcap : 0 < totalCap)
    (lower upper cut : Vec) (n : ℤ) (hn : 1 ≤ n) (hn4 : n ≤ 4)
    (hc : ∀ i, 0 < cut i) (hl : ∀ i, cut i ≤ upper i - lower i) (atoms : List (A × Vec))
    (ha : atoms.length ≤ totalCap) :
    ∃ t, s.buildAll totalCap lower upper cut n atoms = .ok t ∧ Made t lower upper cut n ∧ Built t ∧
      t.tags = tagsOf t atoms ∧ t.tags.length + t.nReject = atoms.length := by
  unfold CL.buildAll
  generalize hs' : (if totalCap > s.atomCap then s.setAtomCapacity totalCap else s) = s'
  have hcap' : totalCap ≤ s'.atomCap ∧ Inv s' := by
    subst hs'
    unfold CL.setAtomCapacity
    split_ifs with c1 c2
    · exact ⟨le_rfl, SameTopo.inv (s := s) ⟨rfl, rfl, rfl, rfl, fun _ => ⟨rfl, rfl, rfl⟩⟩ h⟩
    · exact ⟨le_rfl, SameTopo.inv (s := s) ⟨rfl, rfl, rfl, rfl, fun _ => ⟨rfl, rfl, rfl⟩⟩ h⟩
    · exact ⟨by omega, h⟩
  obtain ⟨s1, a1, a2, a3⟩ := makeGrid_ok hcap'.2 lower upper cut n hn hn4 hc hl
  obtain ⟨s2, b1, b2, b3, b4, b5, b6⟩ := clear_ok a2.link
  obtain ⟨s3, c1, c2, c3, c4, c5, c6⟩ := placeAll_ok hc atoms b2 (b3.made a2)
    (by rw [b4, b6, a3]; simp; omega)
  obtain ⟨s4, d1, d2, d3, d4, d5, d6⟩ := build_ok c2 (by rw [c4, b6, a3]; omega)
  refine ⟨s4, ?_, d3.made (c3.made (b3.made a2)), d2, ?_, ?_⟩
  · simp only [a1, b1, c1, d1, Except.bind]
  · rw [d4, c5, b4, List.nil_append]
    unfold tagsOf
    simp only [d3.index, c3.index]
  · rw [d4, d5]
    rw [b5, b4] at c6
    simp at c6
    omega

end Verif.DdCellList
