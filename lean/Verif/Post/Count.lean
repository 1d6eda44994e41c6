/-
The sum over cells and neighbours as a sum over pairs of atoms.
-/
import Verif.Post.Lemmas

set_option autoImplicit false

namespace Verif.Post

open Verif.Boundary

variable {N : ℕ}

/-! ### Sums over lists -/

theorem sum_flatMap {α β : Type*} (l : List α) (h : α → List β) (F : β → ℝ) :
    ((l.flatMap h).map F).sum = (l.map fun x => ((h x).map F).sum).sum := by
  induction l with
  | nil => simp
  | cons x l ih => simp [List.flatMap_cons, ih]

theorem sum_filter_list {α : Type*} (l : List α) (P : α → Bool) (F : α → ℝ) :
    ((l.filter P).map F).sum = (l.map fun a => if P a = true then F a else 0).sum := by
  induction l with
  | nil => simp
  | cons x l ih =>
    by_cases h : P x = true
    · simp [h, ih]
    · simp [h, ih]

theorem sum_cell (g : CellGrid) (pos : Fin N → Vec) (c : ℤ) (F : Fin N → ℝ) :
    ((g.cell pos c).map F).sum =
      ∑ a, if 0 ≤ g.index (pos a) ∧ g.index (pos a) = c then F a else 0 := by
  unfold CellGrid.cell
  rw [sum_filter_list, Fin.sum_univ_def]
  simp only [decide_eq_true_eq]

theorem sum_swap {α : Type*} (l : List α) (F : α → Fin N → ℝ) :
    (l.map fun x => ∑ b, F x b).sum = ∑ b, (l.map fun x => F x b).sum := by
  induction l with
  | nil => simp
  | cons x l ih => simp [ih, Finset.sum_add_distrib]

theorem sum_ordered (F : Fin N → Fin N → ℝ) (h : ∀ a, F a a = 0) :
    ∑ a, ∑ b, F a b = ∑ a, ∑ b, if a < b then F a b + F b a else 0 := by
  have e : ∀ a b, F a b = (if a < b then F a b else 0) + (if b < a then F a b else 0) := by
    intro a b
    rcases lt_trichotomy a b with c | c | c
    · rw [if_pos c, if_neg c.not_gt, add_zero]
    · subst c; rw [h]; simp
    · rw [if_neg c.not_gt, if_pos c, zero_add]
  have s : ∑ a, ∑ b, (if b < a then F a b else 0) = ∑ a, ∑ b, if a < b then F b a else 0 :=
    Finset.sum_comm
  calc ∑ a, ∑ b, F a b
      = ∑ a, ∑ b, ((if a < b then F a b else 0) + (if b < a then F a b else 0)) :=
        Finset.sum_congr rfl fun a _ => Finset.sum_congr rfl fun b _ => e a b
    _ = ∑ a, ∑ b, ((if a < b then F a b else 0) + (if a < b then F b a else 0)) := by
        simp only [Finset.sum_add_distrib]; rw [s]
    _ = _ := by
        refine Finset.sum_congr rfl fun a _ => Finset.sum_congr rfl fun b _ => ?_
        split_ifs <;> simp

/-! ### The grid -/

/-- A position strictly inside the box of the grid. -/
def CellGrid.Inside (g : CellGrid) (r : Vec) : Prop := ∀ i, g.lower i < r i ∧ r i < g.upper i

/-- The coordinates of the cell of a position. -/
noncomputable def CellGrid.place (g : CellGrid) (r : Vec) : Fin 3 → ℤ :=
  fun i => ⌊(r i - g.lower i) / g.cellLengths i⌋

/-- What `setGridDimensions` establishes. -/
structure CellGrid.OK (g : CellGrid) (cutoff : ℝ) : Prop where
  dim_pos : ∀ i, 1 ≤ g.dim i
  pos : ∀ i, 0 < g.cellLengths i
  total : ∀ i, g.cellLengths i * g.dim i = g.upper i - g.lower i
  wide : ∀ i, cutoff ≤ g.cellLengths i

theorem setGrid_ok {lower upper : Vec} {cutoff : ℝ} {g : CellGrid} (hc : 0 < cutoff)
    (h : setGrid lower upper cutoff = some g) :
    g.OK cutoff ∧ g.lower = lower ∧ g.upper = upper ∧
      ∀ i, g.dim i = ⌊(upper i - lower i) / cutoff⌋ := by
  unfold setGrid at h
  split_ifs at h with hx
  push Not at hx
  cases h
  have d1 : ∀ i, 1 ≤ ⌊(upper i - lower i) / cutoff⌋ := fun i => by
    rw [Int.le_floor, le_div_iff₀ hc]
    push_cast; linarith [(hx i).2]
  have d1' : ∀ i, (0 : ℝ) < (⌊(upper i - lower i) / cutoff⌋ : ℤ) := fun i => by
    have := d1 i
    exact_mod_cast (by omega : 0 < ⌊(upper i - lower i) / cutoff⌋)
  refine ⟨⟨d1, fun i => ?_, fun i => ?_, fun i => ?_⟩, rfl, rfl, fun i => rfl⟩
  · exact div_pos (by linarith [(hx i).2]) (d1' i)
  · exact div_mul_cancel₀ _ (d1' i).ne'
  · show cutoff ≤ (upper i - lower i) / _
    rw [le_div_iff₀ (d1' i)]
    have := Int.floor_le ((upper i - lower i) / cutoff)
    rw [le_div_iff₀ hc] at this
    linarith

theorem CellGrid.OK.valid {g : CellGrid} {cutoff : ℝ} (h : g.OK cutoff) {r : Vec} (hr : g.Inside r) :
    g.Valid (g.place r) := fun i => by
  obtain ⟨a, b⟩ := hr i
  have p := h.pos i
  constructor
  · exact Int.floor_nonneg.2 (div_nonneg (by linarith) p.le)
  · rw [CellGrid.place, Int.floor_lt, div_lt_iff₀ p, mul_comm, h.total]
    linarith

theorem CellGrid.OK.index_eq {g : CellGrid} {r : Vec} (hr : g.Inside r) :
    g.index r = g.rank (g.place r) := by
  unfold CellGrid.index
  rw [if_neg]
  · rfl
  · rintro ⟨i, hi | hi⟩
    · exact absurd (hr i).1 (not_lt.2 hi)
    · exact absurd (hr i).2 (not_lt.2 hi)

theorem CellGrid.OK.index_nonneg {g : CellGrid} {cutoff : ℝ} (h : g.OK cutoff) (r : Vec) :
    0 ≤ g.index r ↔ g.Inside r := by
  constructor
  · intro h0
    unfold CellGrid.index at h0
    split_ifs at h0 with hx
    · omega
    · push Not at hx
      exact hx
  · intro hr
    rw [CellGrid.OK.index_eq hr]
    exact (CellGrid.rank_range (h.valid hr)).1

open Classical in
/-- The energy as a sum over pairs: each pair of atoms in one cell or in touching cells counts once. -/
theorem energy_count {g : CellGrid} {cutoff : ℝ} (h : g.OK cutoff) (hn : ∀ i, 3 ≤ g.dim i)
    (dsq : Vec → Vec → ℝ) (e : ℝ → Fin N → Fin N → ℝ) (pos : Fin N → Vec)
    (hd : ∀ a b, dsq (pos a) (pos b) = dsq (pos b) (pos a)) (he : ∀ x a b, e x a b = e x b a) :
    pairEnergy g dsq cutoff e pos =
      ∑ a, ∑ b, if a < b then
        if (g.Inside (pos a) ∧ g.Inside (pos b)) ∧ g.Adjacent (g.place (pos a)) (g.place (pos b)) then
          if dsq (pos a) (pos b) ≤ cutoff * cutoff then e (dsq (pos a) (pos b)) a b else 0
        else 0
      else 0 := by
  set f : Fin N → Fin N → ℝ := fun a b =>
    if dsq (pos a) (pos b) ≤ cutoff * cutoff then e (dsq (pos a) (pos b)) a b else 0 with hf
  have fs : ∀ a b, f a b = f b a := fun a b => by simp only [hf, hd a b, he _ a b]
  set R : Fin N → ℤ := fun a => g.index (pos a) with hR
  -- the sum over neighbours of one atom
  let K : Fin N → Fin N → ℝ := fun a b =>
    (steps.map fun d0 => (steps.map fun d1 => (steps.map fun d2 =>
      if ¬ (d0 = 0 ∧ d1 = 0 ∧ d2 = 0) ∧ R a + g.step (R a) d0 d1 d2 ≥ R a ∧
        R b = R a + g.step (R a) d0 d1 d2 then (1 : ℝ) else 0).sum).sum).sum
  have others : ∀ (c : ℤ) (F : Fin N → ℝ),
      (((([-1, 0, 1] : List ℤ).flatMap fun d0 => ([-1, 0, 1] : List ℤ).flatMap fun d1 =>
        ([-1, 0, 1] : List ℤ).flatMap fun d2 =>
        if ¬ (d0 = 0 ∧ d1 = 0 ∧ d2 = 0) ∧ c + g.step c d0 d1 d2 ≥ c then
          g.cell pos (c + g.step c d0 d1 d2) else []).map F).sum) =
      ∑ b, (if 0 ≤ R b then F b else 0) * (steps.map fun d0 => (steps.map fun d1 => (steps.map fun d2 =>
        if ¬ (d0 = 0 ∧ d1 = 0 ∧ d2 = 0) ∧ c + g.step c d0 d1 d2 ≥ c ∧
          R b = c + g.step c d0 d1 d2 then (1 : ℝ) else 0).sum).sum).sum := by
    intro c F
    have inner : ∀ d0 d1 d2 : ℤ,
        ((if ¬ (d0 = 0 ∧ d1 = 0 ∧ d2 = 0) ∧ c + g.step c d0 d1 d2 ≥ c then
          g.cell pos (c + g.step c d0 d1 d2) else []).map F).sum =
        ∑ b, (if 0 ≤ R b then F b else 0) *
          (if ¬ (d0 = 0 ∧ d1 = 0 ∧ d2 = 0) ∧ c + g.step c d0 d1 d2 ≥ c ∧
            R b = c + g.step c d0 d1 d2 then (1 : ℝ) else 0) := by
      intro d0 d1 d2
      by_cases hx : ¬ (d0 = 0 ∧ d1 = 0 ∧ d2 = 0) ∧ c + g.step c d0 d1 d2 ≥ c
      · rw [if_pos hx, sum_cell]
        refine Finset.sum_congr rfl fun b _ => ?_
        by_cases h1 : 0 ≤ R b <;> by_cases h2 : R b = c + g.step c d0 d1 d2
        · rw [if_pos ⟨h1, h2⟩, if_pos h1, if_pos ⟨hx.1, hx.2, h2⟩, mul_one]
        · rw [if_neg fun x => h2 x.2, if_pos h1, if_neg fun x => h2 x.2.2, mul_zero]
        · rw [if_neg fun x => h1 x.1, if_neg h1, zero_mul]
        · rw [if_neg fun x => h1 x.1, if_neg h1, zero_mul]
      · rw [if_neg hx]
        symm
        rw [List.map_nil, List.sum_nil]
        refine Finset.sum_eq_zero fun b _ => ?_
        have hx' : ¬ (¬ (d0 = 0 ∧ d1 = 0 ∧ d2 = 0) ∧ c + g.step c d0 d1 d2 ≥ c ∧
            R b = c + g.step c d0 d1 d2) := fun x => hx ⟨x.1, x.2.1⟩
        rw [if_neg hx', mul_zero]
    rw [sum_flatMap]
    simp only [sum_flatMap, inner, sum_swap, List.sum_map_mul_left]
  -- the sum over one cell
  have cellsum : ∀ c : ℕ, (let neighbors := g.getNeighbors pos c
      let na := (g.cell pos c).length
      ((neighbors.take na).map fun a =>
        ((neighbors.take na).map fun b => if a < b then f a b else 0).sum +
        ((neighbors.drop na).map fun b => f a b).sum).sum) =
      ∑ a, if 0 ≤ R a ∧ R a = c then
        (∑ b, if 0 ≤ R b ∧ R b = R a then (if a < b then f a b else 0) else 0) +
          ∑ b, (if 0 ≤ R b then f a b else 0) * K a b else 0 := by
    intro c
    simp only
    unfold CellGrid.getNeighbors
    rw [List.take_left, List.drop_left]
    rw [sum_cell]
    refine Finset.sum_congr rfl fun a _ => ?_
    by_cases ha : 0 ≤ R a ∧ R a = c
    · rw [if_pos ha, if_pos ha, sum_cell, others]
      simp only [K, ← ha.2]
      rfl
    · rw [if_neg ha, if_neg ha]
  have total : pairEnergy g dsq cutoff e pos = ∑ a, if 0 ≤ R a then
      (∑ b, if 0 ≤ R b ∧ R b = R a then (if a < b then f a b else 0) else 0) +
        ∑ b, (if 0 ≤ R b then f a b else 0) * K a b else 0 := by
    have e1 : pairEnergy g dsq cutoff e pos = ∑ c ∈ Finset.range g.size.toNat, ∑ a,
        if 0 ≤ R a ∧ R a = ((c : ℕ) : ℤ) then
        (∑ b, if 0 ≤ R b ∧ R b = R a then (if a < b then f a b else 0) else 0) +
          ∑ b, (if 0 ≤ R b then f a b else 0) * K a b else 0 := by
      unfold pairEnergy
      show _ = ((List.range g.size.toNat).map _).sum
      congr 1
      exact List.map_congr_left fun c _ => cellsum c
    rw [e1, Finset.sum_comm]
    refine Finset.sum_congr rfl fun a _ => ?_
    by_cases ha : 0 ≤ R a
    · rw [if_pos ha]
      have hi := (h.index_nonneg (pos a)).1 ha
      have hlt : R a < g.size := by
        show g.index (pos a) < _
        rw [CellGrid.OK.index_eq hi]; exact (CellGrid.rank_range (h.valid hi)).2
      rw [Finset.sum_eq_single (R a).toNat]
      · rw [if_pos ⟨ha, by omega⟩]
      · intro c _ hc
        rw [if_neg]
        rintro ⟨-, hx⟩
        omega
      · intro hx
        exact absurd (Finset.mem_range.2 (by omega)) hx
    · rw [if_neg ha]
      exact Finset.sum_eq_zero fun c _ => if_neg fun x => ha x.1
  -- the number of steps between two cells
  have count : ∀ a b, g.Inside (pos a) → g.Inside (pos b) → K a b =
      if g.Adjacent (g.place (pos a)) (g.place (pos b)) ∧ R a < R b then 1 else 0 := by
    intro a b ha hb
    have ra : R a = g.rank (g.place (pos a)) := CellGrid.OK.index_eq ha
    have rb : R b = g.rank (g.place (pos b)) := CellGrid.OK.index_eq hb
    have := sum_steps hn (h.valid ha) (h.valid hb)
    rw [← ra, ← rb] at this
    exact this
  let F : Fin N → Fin N → ℝ := fun a b => if 0 ≤ R a ∧ 0 ≤ R b then
    (if R b = R a ∧ a < b then f a b else 0) +
      (if g.Adjacent (g.place (pos a)) (g.place (pos b)) ∧ R a < R b then f a b else 0) else 0
  have total2 : pairEnergy g dsq cutoff e pos = ∑ a, ∑ b, F a b := by
    rw [total]
    refine Finset.sum_congr rfl fun a _ => ?_
    by_cases ha : 0 ≤ R a
    · rw [if_pos ha, ← Finset.sum_add_distrib]
      refine Finset.sum_congr rfl fun b _ => ?_
      by_cases hb : 0 ≤ R b
      · simp only [F, ha, hb, true_and, and_true, if_true]
        rw [count a b ((h.index_nonneg _).1 ha) ((h.index_nonneg _).1 hb)]
        congr 1
        · by_cases h1 : R b = R a <;> by_cases h2 : a < b <;> simp [h1, h2]
        · split_ifs <;> simp
      · simp only [F, hb, false_and, and_false, if_false, zero_mul, add_zero]
    · rw [if_neg ha]
      symm
      exact Finset.sum_eq_zero fun b _ => if_neg fun x => ha x.1
  rw [total2, sum_ordered F (fun a => by simp [F])]
  refine Finset.sum_congr rfl fun a _ => Finset.sum_congr rfl fun b _ => ?_
  by_cases hab : a < b
  · rw [if_pos hab, if_pos hab]
    by_cases hi : g.Inside (pos a) ∧ g.Inside (pos b)
    · have ha : 0 ≤ R a := (h.index_nonneg _).2 hi.1
      have hb : 0 ≤ R b := (h.index_nonneg _).2 hi.2
      have ra : R a = g.rank (g.place (pos a)) := CellGrid.OK.index_eq hi.1
      have rb : R b = g.rank (g.place (pos b)) := CellGrid.OK.index_eq hi.2
      have symA : g.Adjacent (g.place (pos b)) (g.place (pos a)) ↔
          g.Adjacent (g.place (pos a)) (g.place (pos b)) :=
        ⟨CellGrid.Adjacent.symm, CellGrid.Adjacent.symm⟩
      simp only [F, ha, hb, hi, hab, hab.not_gt, true_and, and_true, and_false, if_true, if_false,
        zero_add, symA, fs b a]
      rcases lt_trichotomy (R a) (R b) with c | c | c
      · simp only [c, c.ne', c.not_gt, if_false, and_true, and_false, zero_add, add_zero]
        rfl
      · have adj : g.Adjacent (g.place (pos a)) (g.place (pos b)) := by
          have : g.place (pos a) = g.place (pos b) :=
            CellGrid.rank_inj (h.valid hi.1) (h.valid hi.2) (by rw [← ra, ← rb, c])
          rw [this]
          exact fun i => ⟨0, by omega, by simp⟩
        simp only [c, lt_irrefl, adj, if_true, if_false, and_false, add_zero]
        rfl
      · simp only [c, c.ne, c.not_gt, if_false, and_true, and_false, zero_add]
        rfl
    · rw [if_neg fun x => hi x.1]
      have : ¬ (0 ≤ R a ∧ 0 ≤ R b) := fun x =>
        hi ⟨(h.index_nonneg _).1 x.1, (h.index_nonneg _).1 x.2⟩
      have h' : ¬ (0 ≤ R b ∧ 0 ≤ R a) := fun x => this ⟨x.2, x.1⟩
      simp only [F, this, h', if_false, add_zero]
  · rw [if_neg hab, if_neg hab]

end Verif.Post
