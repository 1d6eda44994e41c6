import Verif.McCellList.Model
import Mathlib.Tactic.Linarith
import Mathlib.Tactic.IntervalCases
import Mathlib.Tactic.FinCases
import Mathlib.Data.List.Nodup

/-! # Lemmas about the cell grid -/

namespace Verif.McCellList

open Verif.Boundary Verif.McCell Verif.Cpp

theorem mem_loop {lo hi d : ℤ} : d ∈ loop lo hi ↔ lo ≤ d ∧ d ≤ hi := by
  unfold loop
  simp only [List.mem_map, List.mem_range]
  constructor
  · rintro ⟨k, hk, rfl⟩; omega
  · rintro ⟨h1, h2⟩; exact ⟨(d - lo).toNat, by omega, by omega⟩

theorem nodup_loop (lo hi : ℤ) : (loop lo hi).Nodup := by
  unfold loop
  refine List.Nodup.map ?_ List.nodup_range
  intro a b h
  simp only at h
  omega

/-- Coordinates visited along one axis. -/
def visited (n i : ℤ) : List ℤ := (loop (minDel n) (maxDel n)).map fun d => shiftCoord n (i + d)

theorem mem_visited_range {n i j : ℤ} (hn : 0 < n) (hi : 0 ≤ i ∧ i < n) (hj : j ∈ visited n i) :
    0 ≤ j ∧ j < n := by
  unfold visited at hj
  obtain ⟨d, hd, rfl⟩ := List.mem_map.1 hj
  rw [mem_loop] at hd
  unfold minDel maxDel at hd
  unfold shiftCoord
  split_ifs at * <;> omega

theorem nodup_visited {n i : ℤ} (hn : 0 < n) (hi : 0 ≤ i ∧ i < n) : (visited n i).Nodup := by
  unfold visited
  refine List.Nodup.map_on ?_ (nodup_loop _ _)
  intro x hx y hy h
  rw [mem_loop] at hx hy
  unfold minDel maxDel at hx hy
  unfold shiftCoord at h
  split_ifs at * <;> omega

/-- A cell adjacent modulo `n` is visited. -/
theorem mem_visited {n i j k : ℤ} (hn : 0 < n) (hi : 0 ≤ i ∧ i < n) (hj : 0 ≤ j ∧ j < n)
    (h1 : -1 ≤ i - j + n * k) (h2 : i - j + n * k ≤ 1) : j ∈ visited n i := by
  unfold visited
  rw [List.mem_map]
  rcases lt_or_ge 2 n with h3 | h3
  · have hk1 : -1 ≤ k := by nlinarith
    have hk2 : k ≤ 1 := by nlinarith
    refine ⟨j - i - n * k, ?_, ?_⟩
    · rw [mem_loop]; unfold minDel maxDel; rw [if_pos h3, if_pos h3]; omega
    · unfold shiftCoord
      interval_cases k <;> split_ifs <;> omega
  · have : n = 1 ∨ n = 2 := by omega
    rcases this with rfl | rfl
    · exact ⟨0, by rw [mem_loop]; unfold minDel maxDel; split_ifs <;> omega,
        by unfold shiftCoord; split_ifs <;> omega⟩
    · rcases eq_or_ne i j with rfl | hne
      · exact ⟨0, by rw [mem_loop]; unfold minDel maxDel; split_ifs <;> omega,
          by unfold shiftCoord; split_ifs <;> omega⟩
      · exact ⟨-1, by rw [mem_loop]; unfold minDel maxDel; split_ifs <;> omega,
          by unfold shiftCoord; split_ifs <;> omega⟩

theorem length_visited_le (n i : ℤ) : (visited n i).length ≤ 3 := by
  unfold visited loop minDel maxDel
  rw [List.length_map, List.length_map, List.length_range]
  split_ifs <;> simp

/-! ### Cell indices -/

/-- Coordinates of an existing cell. -/
def InGrid (n : IVec) (c : IVec) : Prop := ∀ i, 0 ≤ c i ∧ c i < n i

theorem cellIndex_range {n c : IVec} (hc : InGrid n c) :
    0 ≤ cellIndex n (c 0) (c 1) (c 2) ∧ cellIndex n (c 0) (c 1) (c 2) < n 1 * n 2 * n 0 := by
  have h0 := hc 0
  have h1 := hc 1
  have h2 := hc 2
  unfold cellIndex
  constructor
  · have : 0 ≤ n 1 * n 2 := mul_nonneg (by omega) (by omega)
    have a := mul_nonneg h0.1 this
    have b := mul_nonneg h1.1 (by omega : 0 ≤ n 2)
    omega
  · have a : c 1 * n 2 + c 2 < n 1 * n 2 := by nlinarith
    have : 0 ≤ n 1 * n 2 := mul_nonneg (by omega) (by omega)
    nlinarith

theorem cellCoord_cellIndex {n c : IVec} (hc : InGrid n c) :
    cellCoord n (cellIndex n (c 0) (c 1) (c 2)) = c := by
  have h0 := hc 0
  have h1 := hc 1
  have h2 := hc 2
  have a : c 1 * n 2 + c 2 < n 1 * n 2 := by nlinarith
  have b : 0 ≤ c 1 * n 2 + c 2 := by
    have := mul_nonneg h1.1 (by omega : 0 ≤ n 2)
    omega
  have hp : 0 < n 1 * n 2 := by nlinarith
  have hr := cellIndex_range hc
  have hx : (cellIndex n (c 0) (c 1) (c 2)).tdiv (n 1 * n 2) = c 0 := by
    rw [Int.tdiv_eq_ediv_of_nonneg hr.1]
    have e : cellIndex n (c 0) (c 1) (c 2) = (c 1 * n 2 + c 2) + (n 1 * n 2) * c 0 := by
      unfold cellIndex; ring
    rw [e, Int.add_mul_ediv_left _ _ hp.ne', Int.ediv_eq_zero_of_lt b a, zero_add]
  have hy : (c 1 * n 2 + c 2).tdiv (n 2) = c 1 := by
    rw [Int.tdiv_eq_ediv_of_nonneg b, mul_comm, add_comm,
      Int.add_mul_ediv_left _ _ (by omega), Int.ediv_eq_zero_of_lt h2.1 h2.2, zero_add]
  have hrest : cellIndex n (c 0) (c 1) (c 2) - c 0 * (n 1 * n 2) = c 1 * n 2 + c 2 := by
    unfold cellIndex; ring
  funext i
  unfold cellCoord
  simp only [hx, hrest, hy]
  fin_cases i <;> simp

theorem cellIndex_inj {n c d : IVec} (hc : InGrid n c) (hd : InGrid n d)
    (h : cellIndex n (c 0) (c 1) (c 2) = cellIndex n (d 0) (d 1) (d 2)) : c = d := by
  rw [← cellCoord_cellIndex hc, ← cellCoord_cellIndex hd, h]

/-- Every index in range is the index of a cell of the grid. -/
theorem exists_coord {n : IVec} (hn : ∀ i, 0 < n i) {k : ℤ} (h0 : 0 ≤ k)
    (h1 : k < n 1 * n 2 * n 0) :
    ∃ c, InGrid n c ∧ k = cellIndex n (c 0) (c 1) (c 2) := by
  have p1 := hn 1
  have p2 := hn 2
  have p := mul_pos p1 p2
  refine ⟨![k / (n 1 * n 2), (k % (n 1 * n 2)) / n 2, (k % (n 1 * n 2)) % n 2], ?_, ?_⟩
  · have b0 := Int.emod_nonneg k p.ne'
    have b1 := Int.emod_lt_of_pos k p
    intro i
    fin_cases i
    · exact ⟨Int.ediv_nonneg h0 p.le, Int.ediv_lt_of_lt_mul p (by rw [mul_comm]; exact h1)⟩
    · exact ⟨Int.ediv_nonneg b0 p2.le, Int.ediv_lt_of_lt_mul p2 b1⟩
    · exact ⟨Int.emod_nonneg _ p2.ne', Int.emod_lt_of_pos _ p2⟩
  · simp only [cellIndex, Matrix.cons_val]
    have e1 := Int.mul_ediv_add_emod k (n 1 * n 2)
    have e2 := Int.mul_ediv_add_emod (k % (n 1 * n 2)) (n 2)
    linarith [mul_comm (n 1 * n 2) (k / (n 1 * n 2)), mul_comm (n 2) (k % (n 1 * n 2) / n 2)]

/-! ### The visited cells -/

theorem mem_otherCells {n c d : IVec} (hn : ∀ i, 0 < n i) (hc : InGrid n c) (hd : InGrid n d) :
    cellIndex n (d 0) (d 1) (d 2) ∈ otherCells n (cellIndex n (c 0) (c 1) (c 2)) ↔
      d ≠ c ∧ ∀ i, d i ∈ visited (n i) (c i) := by
  unfold otherCells
  simp only [cellCoord_cellIndex hc]
  rw [List.mem_filter]
  simp only [decide_eq_true_eq, List.mem_flatMap, List.mem_map]
  constructor
  · rintro ⟨⟨dx, hx, dy, hy, dz, hz, he⟩, hne⟩
    have v0 : shiftCoord (n 0) (c 0 + dx) ∈ visited (n 0) (c 0) := List.mem_map.2 ⟨dx, hx, rfl⟩
    have v1 : shiftCoord (n 1) (c 1 + dy) ∈ visited (n 1) (c 1) := List.mem_map.2 ⟨dy, hy, rfl⟩
    have v2 : shiftCoord (n 2) (c 2 + dz) ∈ visited (n 2) (c 2) := List.mem_map.2 ⟨dz, hz, rfl⟩
    have hg : InGrid n ![shiftCoord (n 0) (c 0 + dx), shiftCoord (n 1) (c 1 + dy),
        shiftCoord (n 2) (c 2 + dz)] := by
      intro i
      fin_cases i
      · exact mem_visited_range (hn 0) (hc 0) v0
      · exact mem_visited_range (hn 1) (hc 1) v1
      · exact mem_visited_range (hn 2) (hc 2) v2
    have := cellIndex_inj hg hd he
    constructor
    · rintro rfl; exact hne rfl
    · intro i
      rw [← this]
      fin_cases i
      · exact v0
      · exact v1
      · exact v2
  · rintro ⟨hne, hv⟩
    obtain ⟨dx, hx, ex⟩ := List.mem_map.1 (hv 0)
    obtain ⟨dy, hy, ey⟩ := List.mem_map.1 (hv 1)
    obtain ⟨dz, hz, ez⟩ := List.mem_map.1 (hv 2)
    refine ⟨⟨dx, hx, dy, hy, dz, hz, by rw [ex, ey, ez]⟩, ?_⟩
    intro h
    exact hne (cellIndex_inj hd hc h)

theorem otherCells_range {n c : IVec} (hn : ∀ i, 0 < n i) (hc : InGrid n c) {k : ℤ}
    (hk : k ∈ otherCells n (cellIndex n (c 0) (c 1) (c 2))) :
    ∃ d, InGrid n d ∧ k = cellIndex n (d 0) (d 1) (d 2) := by
  unfold otherCells at hk
  simp only [cellCoord_cellIndex hc] at hk
  rw [List.mem_filter] at hk
  simp only [List.mem_flatMap, List.mem_map] at hk
  obtain ⟨⟨dx, hx, dy, hy, dz, hz, rfl⟩, _⟩ := hk
  refine ⟨![shiftCoord (n 0) (c 0 + dx), shiftCoord (n 1) (c 1 + dy),
        shiftCoord (n 2) (c 2 + dz)], ?_, rfl⟩
  intro i
  fin_cases i
  · exact mem_visited_range (hn 0) (hc 0) (List.mem_map.2 ⟨dx, hx, rfl⟩)
  · exact mem_visited_range (hn 1) (hc 1) (List.mem_map.2 ⟨dy, hy, rfl⟩)
  · exact mem_visited_range (hn 2) (hc 2) (List.mem_map.2 ⟨dz, hz, rfl⟩)

theorem nodup_otherCells {n c : IVec} (hn : ∀ i, 0 < n i) (hc : InGrid n c) :
    (otherCells n (cellIndex n (c 0) (c 1) (c 2))).Nodup := by
  unfold otherCells
  simp only [cellCoord_cellIndex hc]
  apply List.Nodup.filter
  have e : ((loop (minDel (n 0)) (maxDel (n 0))).flatMap fun dx =>
      (loop (minDel (n 1)) (maxDel (n 1))).flatMap fun dy =>
        (loop (minDel (n 2)) (maxDel (n 2))).map fun dz =>
          cellIndex n (shiftCoord (n 0) (c 0 + dx)) (shiftCoord (n 1) (c 1 + dy))
            (shiftCoord (n 2) (c 2 + dz)))
      = (visited (n 0) (c 0)).flatMap fun x => (visited (n 1) (c 1)).flatMap fun y =>
          (visited (n 2) (c 2)).map fun z => cellIndex n x y z := by
    unfold visited
    simp [List.flatMap_map, Function.comp_def]
  rw [e]
  have hg : ∀ x y z, x ∈ visited (n 0) (c 0) → y ∈ visited (n 1) (c 1) →
      z ∈ visited (n 2) (c 2) → InGrid n ![x, y, z] := by
    intro x y z hx hy hz i
    fin_cases i
    · exact mem_visited_range (hn 0) (hc 0) hx
    · exact mem_visited_range (hn 1) (hc 1) hy
    · exact mem_visited_range (hn 2) (hc 2) hz
  have inj : ∀ x y z x' y' z', x ∈ visited (n 0) (c 0) → y ∈ visited (n 1) (c 1) →
      z ∈ visited (n 2) (c 2) → x' ∈ visited (n 0) (c 0) → y' ∈ visited (n 1) (c 1) →
      z' ∈ visited (n 2) (c 2) → cellIndex n x y z = cellIndex n x' y' z' →
      x = x' ∧ y = y' ∧ z = z' := by
    intro x y z x' y' z' hx hy hz hx' hy' hz' h
    have := cellIndex_inj (hg x y z hx hy hz) (hg x' y' z' hx' hy' hz') h
    exact ⟨congrFun this 0, congrFun this 1, congrFun this 2⟩
  rw [List.nodup_flatMap]
  refine ⟨fun x hx => ?_, ?_⟩
  · rw [List.nodup_flatMap]
    refine ⟨fun y hy => ?_, ?_⟩
    · refine List.Nodup.map_on ?_ (nodup_visited (hn 2) (hc 2))
      intro z hz z' hz' h
      exact (inj x y z x y z' hx hy hz hx hy hz' h).2.2
    · refine List.Pairwise.imp_of_mem ?_ (nodup_visited (hn 1) (hc 1))
      intro y y' hy hy' hne
      rw [Function.onFun, List.disjoint_left]
      intro k h1 h2
      obtain ⟨z, hz, e1⟩ := List.mem_map.1 h1
      obtain ⟨z', hz', e2⟩ := List.mem_map.1 h2
      exact hne (inj x y z x y' z' hx hy hz hx hy' hz' (e1.trans e2.symm)).2.1
  · refine List.Pairwise.imp_of_mem ?_ (nodup_visited (hn 0) (hc 0))
    intro x x' hx hx' hne
    rw [Function.onFun, List.disjoint_left]
    intro k h1 h2
    obtain ⟨y, hy, h1⟩ := List.mem_flatMap.1 h1
    obtain ⟨y', hy', h2⟩ := List.mem_flatMap.1 h2
    obtain ⟨z, hz, e1⟩ := List.mem_map.1 h1
    obtain ⟨z', hz', e2⟩ := List.mem_map.1 h2
    exact hne (inj x y z x' y' z' hx hy hz hx' hy' hz' (e1.trans e2.symm)).1

theorem length_loop_le (n : ℤ) : (loop (minDel n) (maxDel n)).length ≤ 3 := by
  have := length_visited_le n 0
  unfold visited at this
  rwa [List.length_map] at this

/-- At most 26 other cells are visited. -/
theorem length_otherCells_le {n c : IVec} (hn : ∀ i, 0 < n i) (hc : InGrid n c) :
    (otherCells n (cellIndex n (c 0) (c 1) (c 2))).length ≤ 26 := by
  have hnd : (cellIndex n (c 0) (c 1) (c 2) ::
      otherCells n (cellIndex n (c 0) (c 1) (c 2))).Nodup := by
    rw [List.nodup_cons]
    refine ⟨?_, nodup_otherCells hn hc⟩
    unfold otherCells
    simp [List.mem_filter]
  have hsub : (cellIndex n (c 0) (c 1) (c 2) ::
      otherCells n (cellIndex n (c 0) (c 1) (c 2))) ⊆
      ((loop (minDel (n 0)) (maxDel (n 0))).flatMap fun dx =>
        (loop (minDel (n 1)) (maxDel (n 1))).flatMap fun dy =>
          (loop (minDel (n 2)) (maxDel (n 2))).map fun dz =>
            cellIndex n (shiftCoord (n 0) (c 0 + dx)) (shiftCoord (n 1) (c 1 + dy))
              (shiftCoord (n 2) (c 2 + dz))) := by
    intro k hk
    rcases List.mem_cons.1 hk with rfl | hk
    · have z : ∀ n : ℤ, (0 : ℤ) ∈ loop (minDel n) (maxDel n) := by
        intro n; rw [mem_loop]; unfold minDel maxDel; split_ifs <;> omega
      have s : ∀ i, shiftCoord (n i) (c i + 0) = c i := by
        intro i; have := hc i; unfold shiftCoord; split_ifs <;> omega
      simp only [List.mem_flatMap, List.mem_map]
      exact ⟨0, z _, 0, z _, 0, z _, by rw [s, s, s]⟩
    · unfold otherCells at hk
      simp only [cellCoord_cellIndex hc] at hk
      exact (List.mem_filter.1 hk).1
  have hle := (List.subperm_of_subset hnd hsub).length_le
  have h27 : ((loop (minDel (n 0)) (maxDel (n 0))).flatMap fun dx =>
        (loop (minDel (n 1)) (maxDel (n 1))).flatMap fun dy =>
          (loop (minDel (n 2)) (maxDel (n 2))).map fun dz =>
            cellIndex n (shiftCoord (n 0) (c 0 + dx)) (shiftCoord (n 1) (c 1 + dy))
              (shiftCoord (n 2) (c 2 + dz))).length ≤ 27 := by
    simp only [List.length_flatMap, List.length_map, List.map_const', List.sum_replicate,
      smul_eq_mul]
    have h0 := length_loop_le (n 0)
    have h1 := length_loop_le (n 1)
    have h2 := length_loop_le (n 2)
    exact le_trans (Nat.mul_le_mul h0 (Nat.mul_le_mul h1 h2)) (by norm_num)
  simp only [List.length_cons] at hle
  omega

/-! ### Cells and positions -/

theorem axisCells_pos (L cutoff : ℝ) : 0 < axisCells L cutoff := by
  unfold axisCells; simp only; split_ifs <;> omega

/-- The integer coordinates of the cell containing scaled coordinates `u`. -/
noncomputable def box (n : IVec) (u : Vec) : IVec := fun i => ⌊u i * (n i : ℝ)⌋

theorem box_inGrid {n : IVec} (hn : ∀ i, 0 < n i) {u : Vec} (hu : ∀ i, 0 ≤ u i ∧ u i < 1) :
    InGrid n (box n u) := by
  intro i
  have h : (0 : ℝ) < n i := by exact_mod_cast hn i
  constructor
  · exact Int.floor_nonneg.2 (mul_nonneg (hu i).1 h.le)
  · rw [box, Int.floor_lt]
    nlinarith [(hu i).2]

theorem indexFromGen_eq {n : IVec} (hn : ∀ i, 0 < n i) {u : Vec}
    (hu : ∀ i, 0 ≤ u i ∧ u i < 1) :
    indexFromGen n u = some (cellIndex n (box n u 0) (box n u 1) (box n u 2)) := by
  have hb := box_inGrid hn hu
  have ht : ∀ i, trunc (u i * (n i : ℝ)) = box n u i := by
    intro i
    have h : (0 : ℝ) < n i := by exact_mod_cast hn i
    exact trunc_of_nonneg (mul_nonneg (hu i).1 h.le)
  unfold indexFromGen
  simp only [ht]
  rw [if_pos ⟨(hb 0).1, (hb 0).2, (hb 1).1, (hb 1).2, (hb 2).1, (hb 2).2⟩]
  congr 1
  unfold cellIndex; ring

/-- Geometric core of neighbour completeness along one axis. -/
theorem adjacent_axis {L cutoff u w : ℝ} {k : ℤ} (hL : 0 < L) (hc : 0 < cutoff)
    (hu : 0 ≤ u ∧ u < 1) (hw : 0 ≤ w ∧ w < 1)
    (hd : (L * (u - w + k)) ^ 2 < cutoff ^ 2) :
    ⌊w * (axisCells L cutoff : ℝ)⌋ ∈ visited (axisCells L cutoff)
      ⌊u * (axisCells L cutoff : ℝ)⌋ := by
  have hn := axisCells_pos L cutoff
  have hnr : (0 : ℝ) < axisCells L cutoff := by exact_mod_cast hn
  have hr : ∀ x : ℝ, 0 ≤ x ∧ x < 1 → 0 ≤ ⌊x * (axisCells L cutoff : ℝ)⌋ ∧
      ⌊x * (axisCells L cutoff : ℝ)⌋ < axisCells L cutoff := by
    intro x hx
    constructor
    · exact Int.floor_nonneg.2 (mul_nonneg hx.1 hnr.le)
    · rw [Int.floor_lt]; nlinarith [hx.2]
  rcases lt_or_ge 1 (axisCells L cutoff) with h1 | h1
  · have habs : |L * (u - w + k)| < cutoff := abs_lt_of_sq_lt_sq hd hc.le
    rw [abs_mul, abs_of_pos hL] at habs
    have hcell : (axisCells L cutoff : ℝ) * cutoff ≤ L := by
      have : axisCells L cutoff = ⌊L / cutoff⌋ := by
        unfold axisCells at h1 ⊢
        simp only [trunc_of_nonneg (div_nonneg hL.le hc.le)] at h1 ⊢
        split_ifs at h1 ⊢
        · omega
        · rfl
      have h2 : (axisCells L cutoff : ℝ) ≤ L / cutoff := by rw [this]; exact Int.floor_le _
      rwa [le_div_iff₀ hc] at h2
    have hlt : |(axisCells L cutoff : ℝ) * (u - w + k)| < 1 := by
      rw [abs_mul, abs_of_pos hnr]
      have h0 := abs_nonneg (u - w + k)
      by_contra hge
      push Not at hge
      nlinarith
    rw [abs_lt] at hlt
    have fu1 := Int.floor_le (u * (axisCells L cutoff : ℝ))
    have fu2 := Int.lt_floor_add_one (u * (axisCells L cutoff : ℝ))
    have fw1 := Int.floor_le (w * (axisCells L cutoff : ℝ))
    have fw2 := Int.lt_floor_add_one (w * (axisCells L cutoff : ℝ))
    have e : (axisCells L cutoff : ℝ) * (u - w + k) = u * (axisCells L cutoff : ℝ)
        - w * (axisCells L cutoff : ℝ) + (axisCells L cutoff : ℝ) * k := by ring
    rw [e] at hlt
    refine mem_visited (k := k) hn (hr u hu) (hr w hw) ?_ ?_
    · have : (-2 : ℝ) < ((⌊u * (axisCells L cutoff : ℝ)⌋ - ⌊w * (axisCells L cutoff : ℝ)⌋
          + axisCells L cutoff * k : ℤ) : ℝ) := by
        push_cast; linarith
      have : (-2 : ℤ) < (⌊u * (axisCells L cutoff : ℝ)⌋ - ⌊w * (axisCells L cutoff : ℝ)⌋
          + axisCells L cutoff * k : ℤ) := by exact_mod_cast this
      omega
    · have : ((⌊u * (axisCells L cutoff : ℝ)⌋ - ⌊w * (axisCells L cutoff : ℝ)⌋
          + axisCells L cutoff * k : ℤ) : ℝ) < 2 := by
        push_cast; linarith
      have : (⌊u * (axisCells L cutoff : ℝ)⌋ - ⌊w * (axisCells L cutoff : ℝ)⌋
          + axisCells L cutoff * k : ℤ) < 2 := by exact_mod_cast this
      omega
  · have hu' := hr u hu
    have hw' := hr w hw
    exact mem_visited (k := 0) hn hu' hw' (by omega) (by omega)

end Verif.McCellList
