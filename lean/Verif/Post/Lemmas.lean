/-
Ranks of cells, and the number of ways to step from one cell to another.
-/
import Verif.Post.Model
import Mathlib.Algebra.BigOperators.Fin
import Mathlib.Algebra.BigOperators.Group.Finset.Piecewise
import Mathlib.Algebra.Order.BigOperators.Group.Finset
import Mathlib.Data.Fintype.BigOperators

set_option autoImplicit false

namespace Verif.Post

open Verif.Boundary

/-- Coordinates of a cell of the grid. -/
def CellGrid.Valid (g : CellGrid) (p : Fin 3 → ℤ) : Prop := ∀ i, 0 ≤ p i ∧ p i < g.dim i

theorem CellGrid.rank_eq (g : CellGrid) (p : Fin 3 → ℤ) :
    g.rank p = p 0 * (g.dim 1 * g.dim 2) + p 1 * g.dim 2 + p 2 := by
  unfold CellGrid.rank CellGrid.offsets
  simp

theorem CellGrid.rank_range {g : CellGrid} {p : Fin 3 → ℤ} (h : g.Valid p) :
    0 ≤ g.rank p ∧ g.rank p < g.size := by
  obtain ⟨a0, b0⟩ := h 0
  obtain ⟨a1, b1⟩ := h 1
  obtain ⟨a2, b2⟩ := h 2
  rw [g.rank_eq]
  unfold CellGrid.size
  have n1 : 0 < g.dim 1 := by omega
  have n2 : 0 < g.dim 2 := by omega
  constructor
  · positivity
  · have h1 : p 1 * g.dim 2 + p 2 < g.dim 1 * g.dim 2 := by nlinarith
    nlinarith [mul_pos n1 n2]

theorem CellGrid.coords_rank {g : CellGrid} {p : Fin 3 → ℤ} (h : g.Valid p) :
    g.coords (g.rank p) = p := by
  obtain ⟨a0, b0⟩ := h 0
  obtain ⟨a1, b1⟩ := h 1
  obtain ⟨a2, b2⟩ := h 2
  have n1 : 0 < g.dim 1 := by omega
  have n2 : 0 < g.dim 2 := by omega
  have n12 := mul_pos n1 n2
  have r := (CellGrid.rank_range h).1
  rw [g.rank_eq] at r ⊢
  have hlow : p 1 * g.dim 2 + p 2 < g.dim 1 * g.dim 2 := by nlinarith
  have hlow0 : 0 ≤ p 1 * g.dim 2 + p 2 := by positivity
  have o0 : g.offsets 0 = g.dim 1 * g.dim 2 := rfl
  have o1 : g.offsets 1 = g.dim 2 := rfl
  have d0 : (p 0 * (g.dim 1 * g.dim 2) + p 1 * g.dim 2 + p 2).tdiv (g.offsets 0) = p 0 := by
    rw [Int.tdiv_eq_ediv_of_nonneg r, o0,
      show p 0 * (g.dim 1 * g.dim 2) + p 1 * g.dim 2 + p 2 =
        (p 1 * g.dim 2 + p 2) + p 0 * (g.dim 1 * g.dim 2) by ring,
      Int.add_mul_ediv_right _ _ n12.ne', Int.ediv_eq_zero_of_lt hlow0 hlow, zero_add]
  have e1 : p 0 * (g.dim 1 * g.dim 2) + p 1 * g.dim 2 + p 2 - p 0 * g.offsets 0 =
      p 2 + p 1 * g.dim 2 := by rw [o0]; ring
  have d1 : (p 2 + p 1 * g.dim 2).tdiv (g.offsets 1) = p 1 := by
    rw [Int.tdiv_eq_ediv_of_nonneg (by linarith), o1, Int.add_mul_ediv_right _ _ n2.ne',
      Int.ediv_eq_zero_of_lt a2 b2, zero_add]
  have e2 : p 2 + p 1 * g.dim 2 - p 1 * g.offsets 1 = p 2 := by rw [o1]; ring
  unfold CellGrid.coords
  simp only [d0, e1, d1, e2]
  funext i
  fin_cases i <;> rfl

theorem CellGrid.rank_inj {g : CellGrid} {p q : Fin 3 → ℤ} (hp : g.Valid p) (hq : g.Valid q)
    (h : g.rank p = g.rank q) : p = q := by
  rw [← CellGrid.coords_rank hp, ← CellGrid.coords_rank hq, h]

/-- The cell reached by a step. -/
def CellGrid.wrap (g : CellGrid) (p : Fin 3 → ℤ) (d : Fin 3 → ℤ) : Fin 3 → ℤ :=
  fun i => (p i + d i) % g.dim i

theorem CellGrid.wrap_valid {g : CellGrid} (hn : ∀ i, 0 < g.dim i) (p d : Fin 3 → ℤ) :
    g.Valid (g.wrap p d) :=
  fun i => ⟨Int.emod_nonneg _ (hn i).ne', Int.emod_lt_of_pos _ (hn i)⟩

theorem wrap1 {n p d : ℤ} (h0 : 0 ≤ p) (h1 : p < n) (hd : d = -1 ∨ d = 0 ∨ d = 1) :
    (p + d) % n = if p + d < 0 then p + d + n else if p + d ≥ n then p + d - n else p + d := by
  split_ifs with a c
  · rw [← Int.add_emod_right, Int.emod_eq_of_lt] <;> omega
  · rw [← Int.sub_emod_right, Int.emod_eq_of_lt] <;> omega
  · rw [Int.emod_eq_of_lt] <;> omega

/-- One step along an axis, for grids of two or more cells. -/
theorem CellGrid.term_eq {g : CellGrid} {p : Fin 3 → ℤ} (hp : g.Valid p) (i : Fin 3)
    (hn : 2 ≤ g.dim i) {d : ℤ} (hd : d = -1 ∨ d = 0 ∨ d = 1) :
    g.term (g.rank p) i d = ((p i + d) % g.dim i - p i) * g.offsets i := by
  obtain ⟨a, b⟩ := hp i
  rw [wrap1 a b hd]
  unfold CellGrid.term CellGrid.axisOffset
  rw [CellGrid.coords_rank hp]
  have t1 : (1 : ℤ).tmod (g.dim i) = 1 := Int.tmod_eq_of_lt (by omega) (by omega)
  have t2 : (-1 : ℤ).tmod (g.dim i) = -1 := by rw [Int.neg_tmod, t1]
  simp only [t1, t2]
  rcases hd with rfl | rfl | rfl
  · rw [if_neg (by omega), if_neg (by omega), if_neg (show ¬ p i + -1 ≥ g.dim i by omega)]
    by_cases c : p i + -1 < 0
    · rw [if_pos c, if_pos c]; ring
    · rw [if_neg c, if_neg c, if_neg (by omega)]; ring
  · rw [if_pos rfl, if_neg (by omega), if_neg (by omega)]; ring
  · rw [if_neg (by omega), if_pos (by omega), if_neg (show ¬ p i + 1 < 0 by omega),
      if_neg (show ¬ p i + 1 < 0 by omega)]
    by_cases c : p i + 1 ≥ g.dim i
    · rw [if_pos c, if_pos c]; ring
    · rw [if_neg c, if_neg c]; ring

/-- The steps along one axis. -/
abbrev steps : List ℤ := [-1, 0, 1]

theorem mem_steps {d : ℤ} : d ∈ steps ↔ d = -1 ∨ d = 0 ∨ d = 1 := by simp [steps]

theorem CellGrid.step_eq {g : CellGrid} {p : Fin 3 → ℤ} (hp : g.Valid p) (hn : ∀ i, 2 ≤ g.dim i)
    {d0 d1 d2 : ℤ} (h0 : d0 ∈ steps) (h1 : d1 ∈ steps) (h2 : d2 ∈ steps) :
    g.rank p + g.step (g.rank p) d0 d1 d2 = g.rank (g.wrap p ![d0, d1, d2]) := by
  unfold CellGrid.step
  rw [CellGrid.term_eq hp 0 (hn 0) (mem_steps.1 h0), CellGrid.term_eq hp 1 (hn 1) (mem_steps.1 h1),
    CellGrid.term_eq hp 2 (hn 2) (mem_steps.1 h2)]
  unfold CellGrid.rank CellGrid.wrap
  simp
  ring

/-- Cells that touch, modulo the periods of the grid. -/
def CellGrid.Adjacent (g : CellGrid) (p q : Fin 3 → ℤ) : Prop :=
  ∀ i, ∃ d : ℤ, (d = -1 ∨ d = 0 ∨ d = 1) ∧ g.dim i ∣ q i - p i - d

theorem CellGrid.Adjacent.symm {g : CellGrid} {p q : Fin 3 → ℤ} (h : g.Adjacent p q) :
    g.Adjacent q p := fun i => by
  obtain ⟨d, hd, k, hk⟩ := h i
  exact ⟨-d, by omega, -k, by linarith⟩

open Classical in
/-- The number of steps along one axis from `p` to `q`. -/
theorem sum_step {n p q : ℤ} (hn : 3 ≤ n) (hq : 0 ≤ q ∧ q < n) :
    (steps.map fun d => if (p + d) % n = q then (1 : ℝ) else 0).sum =
      if ∃ d : ℤ, (d = -1 ∨ d = 0 ∨ d = 1) ∧ n ∣ q - p - d then 1 else 0 := by
  have w : ∀ {d : ℤ}, (d = -1 ∨ d = 0 ∨ d = 1) → ((p + d) % n = q ↔ n ∣ q - p - d) := by
    intro d hd
    constructor
    · intro h
      have := Int.emod_add_mul_ediv (p + d) n
      exact ⟨-((p + d) / n), by rw [h] at this; linarith⟩
    · rintro ⟨k, hk⟩
      have : p + d = q + n * (-k) := by linarith
      rw [this, Int.add_mul_emod_self_left, Int.emod_eq_of_lt hq.1 hq.2]
  have e1 := w (d := -1) (by omega)
  have e2 := w (d := 0) (by omega)
  have e3 := w (d := 1) (by omega)
  have x12 : ¬ (n ∣ q - p - -1 ∧ n ∣ q - p - 0) := by
    rintro ⟨h1, h2⟩
    have := dvd_sub h1 h2
    have := Int.le_of_dvd (by omega) this
    omega
  have x23 : ¬ (n ∣ q - p - 0 ∧ n ∣ q - p - 1) := by
    rintro ⟨h1, h2⟩
    have := dvd_sub h1 h2
    have := Int.le_of_dvd (by omega) this
    omega
  have x13 : ¬ (n ∣ q - p - -1 ∧ n ∣ q - p - 1) := by
    rintro ⟨h1, h2⟩
    have := dvd_sub h1 h2
    have := Int.le_of_dvd (by omega) this
    omega
  have ex : (∃ d : ℤ, (d = -1 ∨ d = 0 ∨ d = 1) ∧ n ∣ q - p - d) ↔
      (n ∣ q - p - -1 ∨ n ∣ q - p - 0 ∨ n ∣ q - p - 1) := by
    constructor
    · rintro ⟨d, rfl | rfl | rfl, h⟩
      · exact Or.inl h
      · exact Or.inr (Or.inl h)
      · exact Or.inr (Or.inr h)
    · rintro (h | h | h)
      · exact ⟨-1, by omega, h⟩
      · exact ⟨0, by omega, h⟩
      · exact ⟨1, by omega, h⟩
  have hs : (steps.map fun d => if (p + d) % n = q then (1 : ℝ) else 0).sum =
      (if (p + -1) % n = q then (1 : ℝ) else 0) + ((if (p + 0) % n = q then (1 : ℝ) else 0) +
        ((if (p + 1) % n = q then (1 : ℝ) else 0) + 0)) := by
    simp only [steps, List.map_cons, List.map_nil, List.sum_cons, List.sum_nil]
  rw [hs]
  by_cases a : n ∣ q - p - -1
  · have b : ¬ n ∣ q - p - 0 := fun b => x12 ⟨a, b⟩
    have c : ¬ n ∣ q - p - 1 := fun c => x13 ⟨a, c⟩
    rw [if_pos (e1.2 a), if_neg fun h => b (e2.1 h), if_neg fun h => c (e3.1 h),
      if_pos (ex.2 (Or.inl a))]
    norm_num
  · rw [if_neg fun h => a (e1.1 h)]
    by_cases b : n ∣ q - p - 0
    · have c : ¬ n ∣ q - p - 1 := fun c => x23 ⟨b, c⟩
      rw [if_pos (e2.2 b), if_neg fun h => c (e3.1 h), if_pos (ex.2 (Or.inr (Or.inl b)))]
      norm_num
    · rw [if_neg fun h => b (e2.1 h)]
      by_cases c : n ∣ q - p - 1
      · rw [if_pos (e3.2 c), if_pos (ex.2 (Or.inr (Or.inr c)))]
        norm_num
      · rw [if_neg fun h => c (e3.1 h), if_neg fun h => by
          rcases ex.1 h with h | h | h
          · exact a h
          · exact b h
          · exact c h]
        norm_num

open Classical in
/-- The number of steps that `getNeighbors` takes from the cell `p` to the cell `q`. -/
theorem sum_steps {g : CellGrid} (hn : ∀ i, 3 ≤ g.dim i) {p q : Fin 3 → ℤ} (hp : g.Valid p)
    (hq : g.Valid q) :
    (steps.map fun d0 => (steps.map fun d1 => (steps.map fun d2 =>
      if ¬ (d0 = 0 ∧ d1 = 0 ∧ d2 = 0) ∧ g.rank p + g.step (g.rank p) d0 d1 d2 ≥ g.rank p ∧
        g.rank q = g.rank p + g.step (g.rank p) d0 d1 d2 then (1 : ℝ) else 0).sum).sum).sum =
      if g.Adjacent p q ∧ g.rank p < g.rank q then 1 else 0 := by
  by_cases hlt : g.rank p < g.rank q
  · have key : ∀ d0 ∈ steps, ∀ d1 ∈ steps, ∀ d2 ∈ steps,
        (if ¬ (d0 = 0 ∧ d1 = 0 ∧ d2 = 0) ∧ g.rank p + g.step (g.rank p) d0 d1 d2 ≥ g.rank p ∧
          g.rank q = g.rank p + g.step (g.rank p) d0 d1 d2 then (1 : ℝ) else 0) =
        (if (p 0 + d0) % g.dim 0 = q 0 then 1 else 0) * ((if (p 1 + d1) % g.dim 1 = q 1 then 1 else 0) *
          (if (p 2 + d2) % g.dim 2 = q 2 then 1 else 0)) := by
      intro d0 h0 d1 h1 d2 h2
      rw [CellGrid.step_eq hp (fun i => by have := hn i; omega) h0 h1 h2]
      have hw := CellGrid.wrap_valid (g := g) (fun i => by have := hn i; omega) p ![d0, d1, d2]
      have iff : g.rank q = g.rank (g.wrap p ![d0, d1, d2]) ↔
          (p 0 + d0) % g.dim 0 = q 0 ∧ (p 1 + d1) % g.dim 1 = q 1 ∧ (p 2 + d2) % g.dim 2 = q 2 := by
        constructor
        · intro h
          have e := CellGrid.rank_inj hq hw h
          exact ⟨(congrFun e 0).symm, (congrFun e 1).symm, (congrFun e 2).symm⟩
        · rintro ⟨e0, e1, e2⟩
          congr 1
          funext i
          fin_cases i
          · exact e0.symm
          · exact e1.symm
          · exact e2.symm
      by_cases h : g.rank q = g.rank (g.wrap p ![d0, d1, d2])
      · obtain ⟨e0, e1, e2⟩ := iff.1 h
        have hne : ¬ (d0 = 0 ∧ d1 = 0 ∧ d2 = 0) := by
          rintro ⟨rfl, rfl, rfl⟩
          apply hlt.ne'
          have : p = q := by
            funext i
            fin_cases i
            · rw [add_zero, Int.emod_eq_of_lt (hp 0).1 (hp 0).2] at e0; exact e0
            · rw [add_zero, Int.emod_eq_of_lt (hp 1).1 (hp 1).2] at e1; exact e1
            · rw [add_zero, Int.emod_eq_of_lt (hp 2).1 (hp 2).2] at e2; exact e2
          rw [this]
        have hge : g.rank (g.wrap p ![d0, d1, d2]) ≥ g.rank p := by rw [← h]; exact hlt.le
        rw [if_pos e0, if_pos e1, if_pos e2, if_pos ⟨hne, hge, h⟩, mul_one, mul_one]
      · rw [if_neg fun x => h x.2.2]
        by_cases e0 : (p 0 + d0) % g.dim 0 = q 0
        · by_cases e1 : (p 1 + d1) % g.dim 1 = q 1
          · by_cases e2 : (p 2 + d2) % g.dim 2 = q 2
            · exact absurd (iff.2 ⟨e0, e1, e2⟩) h
            · rw [if_neg e2]; ring
          · rw [if_neg e1]; ring
        · rw [if_neg e0]; ring
    have m1 : (steps.map fun d0 => (steps.map fun d1 => (steps.map fun d2 =>
      if ¬ (d0 = 0 ∧ d1 = 0 ∧ d2 = 0) ∧ g.rank p + g.step (g.rank p) d0 d1 d2 ≥ g.rank p ∧
        g.rank q = g.rank p + g.step (g.rank p) d0 d1 d2 then (1 : ℝ) else 0).sum).sum).sum =
      (steps.map fun d0 => (steps.map fun d1 => (steps.map fun d2 =>
        (if (p 0 + d0) % g.dim 0 = q 0 then (1 : ℝ) else 0) *
        ((if (p 1 + d1) % g.dim 1 = q 1 then 1 else 0) *
          (if (p 2 + d2) % g.dim 2 = q 2 then 1 else 0))).sum).sum).sum := by
      congr 1
      refine List.map_congr_left fun d0 h0 => ?_
      congr 1
      refine List.map_congr_left fun d1 h1 => ?_
      congr 1
      exact List.map_congr_left fun d2 h2 => key d0 h0 d1 h1 d2 h2
    rw [m1]
    simp only [List.sum_map_mul_left, List.sum_map_mul_right]
    rw [sum_step (hn 0) (hq 0), sum_step (hn 1) (hq 1), sum_step (hn 2) (hq 2)]
    have hA : g.Adjacent p q ↔ (∃ d : ℤ, (d = -1 ∨ d = 0 ∨ d = 1) ∧ g.dim 0 ∣ q 0 - p 0 - d) ∧
        (∃ d : ℤ, (d = -1 ∨ d = 0 ∨ d = 1) ∧ g.dim 1 ∣ q 1 - p 1 - d) ∧
        (∃ d : ℤ, (d = -1 ∨ d = 0 ∨ d = 1) ∧ g.dim 2 ∣ q 2 - p 2 - d) := by
      constructor
      · exact fun h => ⟨h 0, h 1, h 2⟩
      · rintro ⟨h0, h1, h2⟩ i
        fin_cases i
        · exact h0
        · exact h1
        · exact h2
    generalize (∃ d : ℤ, (d = -1 ∨ d = 0 ∨ d = 1) ∧ g.dim 0 ∣ q 0 - p 0 - d) = A at hA ⊢
    generalize (∃ d : ℤ, (d = -1 ∨ d = 0 ∨ d = 1) ∧ g.dim 1 ∣ q 1 - p 1 - d) = B at hA ⊢
    generalize (∃ d : ℤ, (d = -1 ∨ d = 0 ∨ d = 1) ∧ g.dim 2 ∣ q 2 - p 2 - d) = C at hA ⊢
    by_cases a : A <;> by_cases b : B <;> by_cases c : C <;> simp [hA, a, b, c, hlt]
  · rw [if_neg fun x => hlt x.2]
    have key : ∀ d0 ∈ steps, ∀ d1 ∈ steps, ∀ d2 ∈ steps,
        (if ¬ (d0 = 0 ∧ d1 = 0 ∧ d2 = 0) ∧ g.rank p + g.step (g.rank p) d0 d1 d2 ≥ g.rank p ∧
          g.rank q = g.rank p + g.step (g.rank p) d0 d1 d2 then (1 : ℝ) else 0) = 0 := by
      intro d0 h0 d1 h1 d2 h2
      rw [if_neg]
      rintro ⟨hne, hge, he⟩
      have hqp : g.rank q = g.rank p := le_antisymm (not_lt.1 hlt) (by rw [he]; exact hge)
      rw [CellGrid.step_eq hp (fun i => by have := hn i; omega) h0 h1 h2, hqp] at he
      have hw := CellGrid.wrap_valid (g := g) (fun i => by have := hn i; omega) p ![d0, d1, d2]
      have e := CellGrid.rank_inj hp hw he
      have z : ∀ i d, d ∈ steps → (p i + d) % g.dim i = p i → d = 0 := by
        intro i d hd h
        have n3 := hn i
        obtain ⟨a, b⟩ := hp i
        rw [wrap1 a b (mem_steps.1 hd)] at h
        have := mem_steps.1 hd
        split_ifs at h <;> omega
      exact hne ⟨z 0 d0 h0 (congrFun e 0).symm, z 1 d1 h1 (congrFun e 1).symm,
        z 2 d2 h2 (congrFun e 2).symm⟩
    have m1 : (steps.map fun d0 => (steps.map fun d1 => (steps.map fun d2 =>
      if ¬ (d0 = 0 ∧ d1 = 0 ∧ d2 = 0) ∧ g.rank p + g.step (g.rank p) d0 d1 d2 ≥ g.rank p ∧
        g.rank q = g.rank p + g.step (g.rank p) d0 d1 d2 then (1 : ℝ) else 0).sum).sum).sum =
      (steps.map fun _ => (steps.map fun _ => (steps.map fun _ => (0 : ℝ)).sum).sum).sum := by
      congr 1
      refine List.map_congr_left fun d0 h0 => ?_
      congr 1
      refine List.map_congr_left fun d1 h1 => ?_
      congr 1
      exact List.map_congr_left fun d2 h2 => key d0 h0 d1 h1 d2 h2
    rw [m1]; simp

end Verif.Post
