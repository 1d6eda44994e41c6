/-
Properties C76: the pair energy of the postprocessor.
-/
import Verif.Post.Count

set_option autoImplicit false

namespace Verif.Post

open Verif.Boundary

variable {N : ℕ}

open Classical in
/-- The energy of all pairs of atoms with nearest images within the cutoff, each pair once. -/
noncomputable def trueEnergy (b : Ortho) (cutoff : ℝ) (e : ℝ → Fin N → Fin N → ℝ) (pos : Fin N → Vec) : ℝ :=
  ∑ a, ∑ c, if a < c ∧ b.distanceSq (pos a) (pos c) ≤ cutoff * cutoff then
    e (b.distanceSq (pos a) (pos c)) a c else 0

/-- Positions whose nearest images are within the cutoff lie in one cell or in touching cells. -/
theorem adjacent_of_near {b : Ortho} (hb : b.Reach) {cutoff : ℝ} (hc : 0 < cutoff) {g : CellGrid}
    (hg : setGrid (fun _ => 0) b.lengths cutoff = some g) {r1 r2 : Vec}
    (h : b.distanceSq r1 r2 ≤ cutoff * cutoff) : g.Adjacent (g.place r1) (g.place r2) := by
  obtain ⟨ok, hl, hu, -⟩ := setGrid_ok hc hg
  obtain ⟨hs, -⟩ := C24_ortho_separation hb r1 r2
  have hsq : b.distanceSq r1 r2 = normSq (b.separation r1 r2) := by
    simp only [Ortho.distanceSq, normSq]; ring
  rw [hsq] at h
  intro i
  have hi : |b.separation r1 r2 i| ≤ cutoff := by
    apply abs_le_of_sq_le_sq _ hc.le
    unfold normSq at h
    have := sq_nonneg (b.separation r1 r2 0)
    have := sq_nonneg (b.separation r1 r2 1)
    have := sq_nonneg (b.separation r1 r2 2)
    fin_cases i <;> simp only [Fin.zero_eta, Fin.mk_one, Fin.reduceFinMk] <;> nlinarith
  have hp := ok.pos i
  have hw := ok.wide i
  have ht := ok.total i
  rw [hl, hu] at ht
  simp only [sub_zero] at ht
  have e := congrFun hs i
  simp only [Pi.add_apply, Pi.sub_apply, latVec] at e
  set t := b.translate r1 r2 i
  rw [e, abs_le, ← ht] at hi
  have hm : (t : ℝ) * (g.cellLengths i * g.dim i) = t * g.dim i * g.cellLengths i := by ring
  rw [hm] at hi
  obtain ⟨hi1, hi2⟩ := hi
  have lo : r2 i / g.cellLengths i ≤ r1 i / g.cellLengths i + (t * g.dim i : ℤ) + 1 := by
    rw [div_add' _ _ _ hp.ne', div_add' _ _ _ hp.ne', div_le_div_iff_of_pos_right hp]
    push_cast
    linarith
  have hi' : r1 i / g.cellLengths i + (t * g.dim i : ℤ) ≤ r2 i / g.cellLengths i + 1 := by
    rw [div_add' _ _ _ hp.ne', div_add' _ _ _ hp.ne', div_le_div_iff_of_pos_right hp]
    push_cast
    linarith
  have f1 := Int.floor_le_floor lo
  have f2 := Int.floor_le_floor hi'
  rw [Int.floor_add_one, Int.floor_add_intCast] at f1
  rw [Int.floor_add_one, Int.floor_add_intCast] at f2
  have p1 : g.place r1 i = ⌊r1 i / g.cellLengths i⌋ := by unfold CellGrid.place; rw [hl, sub_zero]
  have p2 : g.place r2 i = ⌊r2 i / g.cellLengths i⌋ := by unfold CellGrid.place; rw [hl, sub_zero]
  refine ⟨g.place r2 i - g.place r1 i - t * g.dim i, ?_, t, by ring⟩
  rw [p1, p2]
  omega

theorem dim_three {lower upper : Vec} {cutoff : ℝ} (hc : 0 < cutoff) {g : CellGrid}
    (hg : setGrid lower upper cutoff = some g) (h3 : ∀ i, 3 * cutoff ≤ upper i - lower i) (i : Fin 3) :
    3 ≤ g.dim i := by
  rw [(setGrid_ok hc hg).2.2.2 i, Int.le_floor, le_div_iff₀ hc]
  push_cast
  exact h3 i

theorem exists_grid {lower upper : Vec} {cutoff : ℝ} (hc : 0 < cutoff)
    (h : ∀ i, cutoff ≤ upper i - lower i) : ∃ g, setGrid lower upper cutoff = some g := by
  unfold setGrid
  rw [if_neg]
  · exact ⟨_, rfl⟩
  · rintro ⟨i, hx | hx⟩
    · linarith [h i]
    · linarith [h i]

open Classical in
/-- **C76 (pair energy).** In an orthorhombic cell with edges of at least three cutoffs, the energy
of a snapshot is the sum over all pairs of atoms with nearest images within the cutoff, each counted
once, of the atoms that are strictly inside the cell. -/
theorem C76_energy {b : Ortho} (hb : b.Reach) {cutoff : ℝ} (hc : 0 < cutoff)
    (h3 : ∀ i, 3 * cutoff ≤ b.lengths i) (e : ℝ → Fin N → Fin N → ℝ) (he : ∀ x a c, e x a c = e x c a)
    (pos : Fin N → Vec) :
    ∃ g, setGrid (fun _ => 0) b.lengths cutoff = some g ∧
      pairEnergy g b.distanceSq cutoff e pos =
        ∑ a, ∑ c, if a < c ∧ (∀ i, 0 < pos a i ∧ pos a i < b.lengths i) ∧
            (∀ i, 0 < pos c i ∧ pos c i < b.lengths i) ∧
            b.distanceSq (pos a) (pos c) ≤ cutoff * cutoff then
          e (b.distanceSq (pos a) (pos c)) a c else 0 := by
  obtain ⟨g, hg⟩ := exists_grid (lower := fun _ => 0) (upper := b.lengths) hc
    (fun i => by rw [sub_zero]; linarith [h3 i])
  refine ⟨g, hg, ?_⟩
  obtain ⟨ok, hl, hu, -⟩ := setGrid_ok hc hg
  have hd : ∀ x y, b.distanceSq x y = b.distanceSq y x := fun x y => (C24_ortho_symm hb x y).2
  rw [energy_count ok (fun i => dim_three hc hg (fun i => by rw [sub_zero]; exact h3 i) i) _ e pos
    (fun a c => hd _ _) he]
  have hin : ∀ r, g.Inside r ↔ ∀ i, 0 < r i ∧ r i < b.lengths i := fun r => by
    unfold CellGrid.Inside; rw [hl, hu]
  refine Finset.sum_congr rfl fun a _ => Finset.sum_congr rfl fun c _ => ?_
  by_cases h1 : a < c
  · rw [if_pos h1]
    by_cases h2 : b.distanceSq (pos a) (pos c) ≤ cutoff * cutoff
    · have adj := adjacent_of_near hb hc hg h2
      by_cases h4 : g.Inside (pos a) ∧ g.Inside (pos c)
      · rw [if_pos ⟨h4, adj⟩, if_pos h2, if_pos ⟨h1, (hin _).1 h4.1, (hin _).1 h4.2, h2⟩]
      · rw [if_neg fun x => h4 x.1, if_neg fun x => h4 ⟨(hin _).2 x.2.1, (hin _).2 x.2.2.1⟩]
    · rw [if_neg h2, ite_self, if_neg fun x => h2 x.2.2.2]
  · rw [if_neg h1, if_neg fun x => h1 x.1]

/-- **C76 (pair energy, atoms inside).** If all atoms are strictly inside the cell, the energy is that
of all pairs within the cutoff. -/
theorem C76_energy_all {b : Ortho} (hb : b.Reach) {cutoff : ℝ} (hc : 0 < cutoff)
    (h3 : ∀ i, 3 * cutoff ≤ b.lengths i) (e : ℝ → Fin N → Fin N → ℝ) (he : ∀ x a c, e x a c = e x c a)
    (pos : Fin N → Vec) (hin : ∀ a i, 0 < pos a i ∧ pos a i < b.lengths i) :
    ∃ g, setGrid (fun _ => 0) b.lengths cutoff = some g ∧
      pairEnergy g b.distanceSq cutoff e pos = trueEnergy b cutoff e pos := by
  obtain ⟨g, hg, h⟩ := C76_energy hb hc h3 e he pos
  refine ⟨g, hg, h.trans ?_⟩
  refine Finset.sum_congr rfl fun a _ => Finset.sum_congr rfl fun c _ => ?_
  by_cases hx : a < c ∧ b.distanceSq (pos a) (pos c) ≤ cutoff * cutoff
  · rw [if_pos hx, if_pos ⟨hx.1, hin a, hin c, hx.2⟩]
  · rw [if_neg hx, if_neg fun y => hx ⟨y.1, y.2.2.2⟩]

/-- The energy of two atoms within the cutoff. -/
theorem trueEnergy_two {b : Ortho} {cutoff : ℝ} (e : ℝ → Fin 2 → Fin 2 → ℝ) (pos : Fin 2 → Vec)
    (h : b.distanceSq (pos 0) (pos 1) ≤ cutoff * cutoff) :
    trueEnergy b cutoff e pos = e (b.distanceSq (pos 0) (pos 1)) 0 1 := by
  unfold trueEnergy
  simp [Fin.sum_univ_two, h]

/-- **C76 (violated for atoms on a face).** An atom with a coordinate zero, which is inside the
primary cell, is not placed in any cell, so that a pair of atoms within the cutoff can be missed. -/
theorem C76_face_violated {b : Ortho} (hb : b.Reach) {cutoff : ℝ} (hc : 0 < cutoff)
    (h3 : ∀ i, 3 * cutoff ≤ b.lengths i) (e : ℝ → Fin 2 → Fin 2 → ℝ) (he : ∀ x a c, e x a c = e x c a)
    (pos : Fin 2 → Vec) (h0 : ∃ i, pos 0 i = 0)
    (hd : b.distanceSq (pos 0) (pos 1) ≤ cutoff * cutoff) :
    ∃ g, setGrid (fun _ => 0) b.lengths cutoff = some g ∧
      pairEnergy g b.distanceSq cutoff e pos = 0 ∧
      trueEnergy b cutoff e pos = e (b.distanceSq (pos 0) (pos 1)) 0 1 := by
  obtain ⟨g, hg, h⟩ := C76_energy hb hc h3 e he pos
  refine ⟨g, hg, ?_, trueEnergy_two e pos hd⟩
  rw [h]
  obtain ⟨i, hi⟩ := h0
  refine Finset.sum_eq_zero fun a _ => Finset.sum_eq_zero fun c _ => ?_
  rw [if_neg]
  rintro ⟨hlt, ha, -⟩
  have : a = 0 := by omega
  subst this
  have := (ha i).1
  rw [hi] at this
  exact lt_irrefl _ this

/-- **C76 (violated if the cell changes).** The grid is made once, by `setup`.  If the cell has grown
since, atoms beyond the old edges are in no cell: pairs of such atoms are missed. -/
theorem C76_resize_violated {b' : Ortho} (hb : b'.Reach) {L : Vec} {cutoff : ℝ} (hc : 0 < cutoff)
    (h3 : ∀ i, 3 * cutoff ≤ L i) (e : ℝ → Fin N → Fin N → ℝ) (he : ∀ x a c, e x a c = e x c a)
    (pos : Fin N → Vec) (hout : ∀ a, ∃ i, L i ≤ pos a i) :
    ∃ g, setGrid (fun _ => 0) L cutoff = some g ∧ pairEnergy g b'.distanceSq cutoff e pos = 0 := by
  obtain ⟨g, hg⟩ := exists_grid (lower := fun _ => 0) (upper := L) hc
    (fun i => by rw [sub_zero]; linarith [h3 i])
  refine ⟨g, hg, ?_⟩
  obtain ⟨ok, hl, hu, -⟩ := setGrid_ok hc hg
  rw [energy_count ok (fun i => dim_three hc hg (fun i => by rw [sub_zero]; exact h3 i) i) _ e pos
    (fun a c => (C24_ortho_symm hb _ _).2) he]
  refine Finset.sum_eq_zero fun a _ => Finset.sum_eq_zero fun c _ => ?_
  split_ifs with h1 h2
  · obtain ⟨i, hi⟩ := hout a
    have := (h2.1.1 i).2
    rw [hu] at this
    linarith
  · rfl
  · rfl
  · rfl

/-! ### Narrow cells -/

theorem step_narrow {g : CellGrid} (h0 : g.dim 0 = 1) {p : Fin 3 → ℤ} (hp : g.Valid p) (d : ℤ) :
    g.term (g.rank p) 0 d = 0 := by
  have p0 : p 0 = 0 := by have := hp 0; omega
  unfold CellGrid.term CellGrid.axisOffset
  rw [CellGrid.coords_rank hp, h0]
  have t1 : Int.tmod 1 1 = 0 := rfl
  have t2 : Int.tmod (-1) 1 = 0 := rfl
  simp only [t1, t2, p0]
  split_ifs <;> simp_all

/-- **C76 (violated for narrow cells).** If the first edge is shorter than two cutoffs, the
neighbours of a cell contain the cell itself, twice: a single atom interacts with itself, at distance
zero. -/
theorem C76_narrow_violated {L : Vec} {cutoff : ℝ} (hc : 0 < cutoff) (h0 : cutoff ≤ L 0)
    (h0' : L 0 < 2 * cutoff) (h1 : 3 * cutoff ≤ L 1) (h2 : 3 * cutoff ≤ L 2) (dsq : Vec → Vec → ℝ)
    (hd : ∀ r, dsq r r = 0) (e : ℝ → Fin 1 → Fin 1 → ℝ) (pos : Fin 1 → Vec)
    (hin : ∀ i, 0 < pos 0 i ∧ pos 0 i < L i) :
    ∃ g, setGrid (fun _ => 0) L cutoff = some g ∧ pairEnergy g dsq cutoff e pos = 2 * e 0 0 0 := by
  obtain ⟨g, hg⟩ := exists_grid (lower := fun _ => 0) (upper := L) hc (fun i => by
    rw [sub_zero]; fin_cases i
    · exact h0
    · show cutoff ≤ L 1; linarith
    · show cutoff ≤ L 2; linarith)
  refine ⟨g, hg, ?_⟩
  obtain ⟨ok, hl, hu, hdim⟩ := setGrid_ok hc hg
  have d0 : g.dim 0 = 1 := by
    rw [hdim 0, sub_zero, Int.floor_eq_iff]
    constructor
    · rw [le_div_iff₀ hc]; push_cast; linarith
    · rw [div_lt_iff₀ hc]; push_cast; linarith
  have d1 : 3 ≤ g.dim 1 := by
    rw [hdim 1, sub_zero, Int.le_floor, le_div_iff₀ hc]; push_cast; exact h1
  have d2 : 3 ≤ g.dim 2 := by
    rw [hdim 2, sub_zero, Int.le_floor, le_div_iff₀ hc]; push_cast; exact h2
  have inside : g.Inside (pos 0) := fun i => by rw [hl, hu]; exact hin i
  have hv := ok.valid inside
  have idx := CellGrid.OK.index_eq inside
  obtain ⟨r0, r1⟩ := CellGrid.rank_range hv
  set p := g.place (pos 0)
  -- contents of the cells
  have cell : ∀ c : ℤ, g.cell pos c = if c = g.rank p then [0] else [] := by
    intro c
    unfold CellGrid.cell
    have : List.finRange 1 = [0] := rfl
    rw [this, List.filter_cons, List.filter_nil, idx]
    by_cases hx : c = g.rank p
    · rw [if_pos hx, if_pos]
      simpa using ⟨r0, hx.symm⟩
    · rw [if_neg hx, if_neg]
      simp only [decide_eq_true_eq]
      rintro ⟨-, h⟩
      exact hx h.symm
  have z : ∀ {i : Fin 3}, 3 ≤ g.dim i → ∀ d ∈ steps, (p i + d) % g.dim i = p i → d = 0 := by
    intro i n3 d hd h
    obtain ⟨a, b⟩ := hv i
    rw [wrap1 a b (mem_steps.1 hd)] at h
    have := mem_steps.1 hd
    split_ifs at h <;> omega
  -- the steps that stay in the cell
  have stay : ∀ d0 ∈ steps, ∀ d1 ∈ steps, ∀ d2 ∈ steps,
      (g.rank p + g.step (g.rank p) d0 d1 d2 = g.rank p ↔ d1 = 0 ∧ d2 = 0) := by
    intro e0 m0 e1 m1 e2 m2
    unfold CellGrid.step
    rw [step_narrow d0 hv, CellGrid.term_eq hv 1 (by omega) (mem_steps.1 m1),
      CellGrid.term_eq hv 2 (by omega) (mem_steps.1 m2)]
    constructor
    · intro h
      have hw : g.Valid ![p 0, (p 1 + e1) % g.dim 1, (p 2 + e2) % g.dim 2] := by
        intro i
        fin_cases i
        · exact hv 0
        · exact ⟨Int.emod_nonneg _ (by omega), Int.emod_lt_of_pos _ (by omega)⟩
        · exact ⟨Int.emod_nonneg _ (by omega), Int.emod_lt_of_pos _ (by omega)⟩
      have hr : g.rank ![p 0, (p 1 + e1) % g.dim 1, (p 2 + e2) % g.dim 2] = g.rank p := by
        rw [← h]
        unfold CellGrid.rank
        simp
        ring
      have := CellGrid.rank_inj hw hv hr
      exact ⟨z d1 e1 m1 (congrFun this 1), z d2 e2 m2 (congrFun this 2)⟩
    · rintro ⟨rfl, rfl⟩
      rw [add_zero, add_zero, Int.emod_eq_of_lt (hv 1).1 (hv 1).2,
        Int.emod_eq_of_lt (hv 2).1 (hv 2).2]
      ring
  have nb : g.getNeighbors pos (g.rank p) = [0, 0, 0] := by
    have one : ∀ d0 ∈ steps, ∀ d1 ∈ steps, ∀ d2 ∈ steps,
        (if ¬ (d0 = 0 ∧ d1 = 0 ∧ d2 = 0) ∧ g.rank p + g.step (g.rank p) d0 d1 d2 ≥ g.rank p then
          g.cell pos (g.rank p + g.step (g.rank p) d0 d1 d2) else []) =
        if d0 ≠ 0 ∧ d1 = 0 ∧ d2 = 0 then [0] else [] := by
      intro e0 m0 e1 m1 e2 m2
      rw [cell]
      have s := stay e0 m0 e1 m1 e2 m2
      by_cases hx : e1 = 0 ∧ e2 = 0
      · have s' := s.2 hx
        rw [s', if_pos rfl]
        by_cases h : e0 = 0
        · rw [if_neg, if_neg]
          · rintro ⟨h', -⟩; exact h' h
          · rintro ⟨h', -⟩; exact h' ⟨h, hx⟩
        · rw [if_pos ⟨fun x => h x.1, le_rfl⟩, if_pos ⟨h, hx⟩]
      · rw [if_neg fun x => hx (s.1 x), ite_self, if_neg fun x => hx x.2]
    have fm : (steps.flatMap fun d0 => steps.flatMap fun d1 => steps.flatMap fun d2 =>
        if ¬ (d0 = 0 ∧ d1 = 0 ∧ d2 = 0) ∧ g.rank p + g.step (g.rank p) d0 d1 d2 ≥ g.rank p then
          g.cell pos (g.rank p + g.step (g.rank p) d0 d1 d2) else []) =
        steps.flatMap fun d0 => steps.flatMap fun d1 => steps.flatMap fun d2 =>
          if d0 ≠ 0 ∧ d1 = 0 ∧ d2 = 0 then [0] else [] := by
      refine List.flatMap_congr fun e0 m0 => List.flatMap_congr fun e1 m1 => ?_
      exact List.flatMap_congr fun e2 m2 => one e0 m0 e1 m1 e2 m2
    have fin : (steps.flatMap fun d0 => steps.flatMap fun d1 => steps.flatMap fun d2 =>
          if d0 ≠ 0 ∧ d1 = 0 ∧ d2 = 0 then [(0 : Fin 1)] else []) = [0, 0] := by decide
    unfold CellGrid.getNeighbors
    show g.cell pos (g.rank p) ++ (steps.flatMap fun d0 => steps.flatMap fun d1 => steps.flatMap fun d2 =>
        if ¬ (d0 = 0 ∧ d1 = 0 ∧ d2 = 0) ∧ g.rank p + g.step (g.rank p) d0 d1 d2 ≥ g.rank p then
          g.cell pos (g.rank p + g.step (g.rank p) d0 d1 d2) else []) = _
    rw [fm, fin, cell, if_pos rfl]
    rfl
  have cut : (0 : ℝ) ≤ cutoff * cutoff := by positivity
  unfold pairEnergy
  show ∑ c ∈ Finset.range g.size.toNat, _ = _
  rw [Finset.sum_eq_single (g.rank p).toNat]
  · have hr : (((g.rank p).toNat : ℕ) : ℤ) = g.rank p := by omega
    rw [hr, nb, cell, if_pos rfl]
    simp [hd, cut]
    ring
  · intro c _ hx
    have : ¬ ((c : ℤ) = g.rank p) := fun h => hx (by omega)
    simp only
    rw [cell, if_neg this]
    simp
  · intro hx
    exact absurd (Finset.mem_range.2 (by omega)) hx

end Verif.Post
