import Verif.Boundary.Model
import Mathlib.Tactic.Linarith
import Mathlib.Tactic.FieldSimp
import Mathlib.Tactic.FinCases
import Mathlib.Tactic.Ring
import Mathlib.Tactic.NormNum
import Mathlib.LinearAlgebra.Matrix.Determinant.Basic

/-!
# Properties C23, C24, C25 for the orthorhombic boundary

All statements quantify over every boundary that can be produced by the public
setters (`Ortho.Reach`) and over all real positions.
-/

namespace Verif.Boundary

/-! ## Specification -/

/-- Boundaries reachable through the public interface with positive lengths. -/
inductive Ortho.Reach : Ortho → Prop
  | default : Reach Ortho.default
  | ortho {b} (l : Vec) (h : ∀ i, 0 < l i) : Reach b → Reach (b.setOrthorhombic l)
  | tetra {b} (a bc : ℝ) (ha : 0 < a) (hb : 0 < bc) : Reach b → Reach (b.setTetragonal a bc)
  | cubic {b} (a : ℝ) (ha : 0 < a) : Reach b → Reach (b.setCubic a)

/-- The lattice translation with integer coefficients `k`. -/
def latVec (L : Vec) (k : IVec) : Vec := fun i => k i * L i

/-- Squared Euclidean norm. -/
def normSq (v : Vec) : ℝ := v 0 ^ 2 + v 1 ^ 2 + v 2 ^ 2

/-- The half-open primary cell. -/
def InCell (L : Vec) (r : Vec) : Prop := ∀ i, 0 ≤ r i ∧ r i < L i

/-- At most one period outside the primary cell in each direction. -/
def NearCell (L : Vec) (r : Vec) : Prop := ∀ i, -L i ≤ r i ∧ r i < 2 * L i

/-! ## Consistency of the derived members -/

/-- All derived members agree with the lengths. -/
structure Ortho.OK (b : Ortho) : Prop where
  pos : ∀ i, 0 < b.lengths i
  minima : ∀ i, b.minima i = 0
  maxima : ∀ i, b.maxima i = b.lengths i
  half : ∀ i, b.half i = b.lengths i / 2
  inv : ∀ i, b.inv i = (b.lengths i)⁻¹
  volume : b.volume = b.lengths 0 * b.lengths 1 * b.lengths 2
  bravais : ∀ i j, b.bravais i j = if j = i then b.lengths i else 0
  reciprocal : ∀ i j, b.reciprocal i j = if j = i then 2 * Real.pi / b.lengths i else 0
  minLe : ∀ i, b.minLength ≤ b.lengths i
  minEq : ∃ i, b.minLength = b.lengths i

theorem minOf_le (l : Vec) (i : Fin 3) : minOf l ≤ l i := by
  unfold minOf
  fin_cases i <;> simp only [Fin.zero_eta, Fin.mk_one, Fin.reduceFinMk] <;>
    split <;> split <;> linarith

theorem minOf_eq (l : Vec) : ∃ i, minOf l = l i := by
  simp only [minOf]
  by_cases h1 : l 1 < l 0
  · rw [if_pos h1]
    by_cases h2 : l 2 < l 1
    · exact ⟨2, by rw [if_pos h2]⟩
    · exact ⟨1, by rw [if_neg h2]⟩
  · rw [if_neg h1]
    by_cases h2 : l 2 < l 0
    · exact ⟨2, by rw [if_pos h2]⟩
    · exact ⟨0, by rw [if_neg h2]⟩

theorem Ortho.default_ok : Ortho.default.OK := by
  constructor
  · intro i; simp [Ortho.default]
  · intro i; rfl
  · intro i; rfl
  · intro i; rfl
  · intro i; simp [Ortho.default]
  · simp [Ortho.default]
  · intro i j; simp [Ortho.default, setc, Function.update_apply]
  · intro i j; simp [Ortho.default, setc, Function.update_apply]
  · intro i; exact minOf_le (fun _ => 1) i
  · exact minOf_eq (fun _ => 1)

theorem Ortho.reset_ok {b : Ortho} (hb : b.OK) (m : Vec) (hm : ∀ i, 0 < m i) (lat : Lattice) :
    (Ortho.reset { b with maxima := m, lattice := lat }).OK := by
  have hl : (fun i => m i - b.minima i) = m := by funext i; rw [hb.minima]; ring
  constructor
  · intro i; simp only [Ortho.reset, hb.minima]; linarith [hm i]
  · intro i; simp only [Ortho.reset]; exact hb.minima i
  · intro i; simp only [Ortho.reset, hb.minima]; ring
  · intro i; simp only [Ortho.reset]; ring
  · intro i; simp only [Ortho.reset, one_div]
  · simp only [Ortho.reset]
  · intro i j
    simp only [Ortho.reset, setc, Function.update_apply]
    split
    · rfl
    · rw [hb.bravais]; rename_i h; rw [if_neg h]
  · intro i j
    simp only [Ortho.reset, setc, Function.update_apply]
    split
    · rfl
    · rw [hb.reciprocal]; rename_i h; rw [if_neg h]
  · intro i; exact minOf_le (fun i => m i - b.minima i) i
  · exact minOf_eq (fun i => m i - b.minima i)

/-- Every reachable boundary is consistent. -/
theorem Ortho.Reach.ok {b : Ortho} (h : b.Reach) : b.OK := by
  induction h with
  | default => exact Ortho.default_ok
  | ortho l hl _ ih => exact Ortho.reset_ok ih l hl _
  | tetra a bc ha hb _ ih =>
    refine Ortho.reset_ok ih _ ?_ _
    intro i; fin_cases i <;> simp [ha, hb]
  | cubic a ha _ ih =>
    refine Ortho.reset_ok ih _ ?_ _
    intro i; fin_cases i <;> simp [ha]

/-- A reachable boundary with prescribed lengths, used for examples. -/
theorem reach_ortho (l : Vec) (h : ∀ i, 0 < l i) :
    ∃ b : Ortho, b.Reach ∧ b.lengths = l := by
  refine ⟨_, .ortho l h .default, ?_⟩
  funext i
  simp [Ortho.setOrthorhombic, Ortho.reset, Ortho.default]

example : ∃ b : Ortho, b.Reach ∧ b.lengths = ![2, 3, 5] :=
  reach_ortho _ (by intro i; fin_cases i <;> simp)

/-! ## C23: wrapping -/

theorem shift1_spec (L r : ℝ) : (shift1 0 L L r).1 + (shift1 0 L L r).2 * L = r := by
  unfold shift1; split
  · push_cast; ring
  · split
    · push_cast; ring
    · push_cast; ring

theorem shift1_range {L r : ℝ} (h1 : -L ≤ r) (h2 : r < 2 * L) :
    0 ≤ (shift1 0 L L r).1 ∧ (shift1 0 L L r).1 < L := by
  unfold shift1
  split
  · constructor <;> simp only <;> linarith
  · split
    · constructor <;> simp only <;> linarith
    · rename_i h3 h4
      push Not at h3 h4
      exact ⟨h4, h3⟩

theorem shift1_fix {L r : ℝ} (h1 : 0 ≤ r) (h2 : r < L) : shift1 0 L L r = (r, 0) := by
  unfold shift1
  rw [if_neg (by push Not; exact h2), if_neg (by push Not; exact h1)]

theorem Ortho.OK.shift1_eq {b : Ortho} (h : b.OK) (r : Vec) (i : Fin 3) :
    shift1 (b.minima i) (b.maxima i) (b.lengths i) (r i)
      = shift1 0 (b.lengths i) (b.lengths i) (r i) := by
  rw [h.minima, h.maxima]

/-- **C23.** A position at most one period outside the cell is wrapped into the
half-open primary cell, and differs from the wrapped one by a lattice vector. -/
theorem C23_ortho_shift {b : Ortho} (hb : b.Reach) (r : Vec) (hr : NearCell b.lengths r) :
    InCell b.lengths (b.shift r) ∧ ∃ k : IVec, r = b.shift r + latVec b.lengths k := by
  refine ⟨?_, fun i => (shift1 0 (b.lengths i) (b.lengths i) (r i)).2, ?_⟩
  · intro i
    simp only [Ortho.shift, hb.ok.shift1_eq]
    exact shift1_range (hr i).1 (hr i).2
  · funext i
    simp only [Ortho.shift, hb.ok.shift1_eq, latVec, Pi.add_apply]
    exact (shift1_spec _ _).symm

/-- Non-vacuity of `NearCell` with a position genuinely outside the cell. -/
example : NearCell ![2, 3, 5] ![-1, 4, 9] ∧ ¬ InCell ![2, 3, 5] ![-1, 4, 9] := by
  constructor
  · intro i; fin_cases i <;> norm_num
  · intro h; have := (h 0).1; norm_num at this

/-- **C23.** The shift counters reconstruct the unwrapped position, for every
position and every initial counter value: `r + shift * L` is invariant, and the
position part agrees with the plain overload. -/
theorem C23_ortho_shift_counts {b : Ortho} (hb : b.Reach) (r : Vec) (s : IVec) :
    (b.shiftI r s).1 + latVec b.lengths (b.shiftI r s).2 = r + latVec b.lengths s ∧
      (b.shiftI r s).1 = b.shift r := by
  refine ⟨?_, rfl⟩
  funext i
  simp only [Ortho.shiftI, hb.ok.shift1_eq, latVec, Pi.add_apply]
  have := shift1_spec (b.lengths i) (r i)
  push_cast
  linarith [this]

/-- **C23.** Wrapping twice equals wrapping once. -/
theorem C23_ortho_shift_idem {b : Ortho} (hb : b.Reach) (r : Vec)
    (hr : NearCell b.lengths r) : b.shift (b.shift r) = b.shift r := by
  have h := (C23_ortho_shift hb r hr).1
  funext i
  have h1 : b.shift (b.shift r) i = (shift1 (b.minima i) (b.maxima i) (b.lengths i)
    (b.shift r i)).1 := rfl
  rw [h1, hb.ok.shift1_eq (b.shift r), shift1_fix (h i).1 (h i).2]

/-- **C23.** Positions in the primary cell are not changed. -/
theorem C23_ortho_shift_fix {b : Ortho} (hb : b.Reach) (r : Vec) (s : IVec)
    (hr : InCell b.lengths r) : b.shiftI r s = (r, s) := by
  unfold Ortho.shiftI
  ext i
  · simp only [hb.ok.shift1_eq, shift1_fix (hr i).1 (hr i).2]
  · simp only [hb.ok.shift1_eq, shift1_fix (hr i).1 (hr i).2]; ring

/-- **C23.** Applying a shift and wrapping inverts: a position of the primary
cell displaced by one period in any direction is wrapped back to itself. -/
theorem C23_ortho_applyShift {b : Ortho} (hb : b.Reach) (r : Vec) (hr : InCell b.lengths r)
    (i : Fin 3) (t : ℤ) (ht : t = 1 ∨ t = -1 ∨ t = 0) : b.shift (b.applyShift r i t) = r := by
  funext j
  unfold Ortho.shift
  rw [hb.ok.shift1_eq]
  have hp := hb.ok.pos j
  have h1 := hr j
  unfold Ortho.applyShift setc
  by_cases hj : j = i
  · subst hj
    simp only [Function.update_self]
    unfold shift1
    rcases ht with rfl | rfl | rfl
    · rw [if_pos (by push_cast; linarith)]; push_cast; ring
    · rw [if_neg (by push_cast; linarith), if_pos (by push_cast; linarith)]; push_cast; ring
    · push_cast
      rw [if_neg (by linarith), if_neg (by linarith)]; ring
  · rw [Function.update_of_ne hj, shift1_fix h1.1 h1.2]

/-- **C23.** Wrapping in scaled coordinates agrees with wrapping in Cartesian
coordinates, for every position. -/
theorem C23_ortho_shiftGen {b : Ortho} (hb : b.Reach) (r : Vec) :
    b.toGen (b.shift r) = shiftGen (b.toGen r) := by
  funext i
  have hp := hb.ok.pos i
  simp only [Ortho.toGen, Ortho.shift, shiftGen, hb.ok.shift1_eq, hb.ok.inv]
  unfold shift1
  have e1 : (r i * (b.lengths i)⁻¹ ≥ 1) ↔ (r i ≥ b.lengths i) := by
    rw [ge_iff_le, ge_iff_le, ← div_eq_mul_inv, le_div_iff₀ hp, one_mul]
  have e2 : (r i * (b.lengths i)⁻¹ < 0) ↔ (r i < 0) := by
    rw [← div_eq_mul_inv, div_lt_iff₀ hp, zero_mul]
  simp only [e1, e2]
  split
  · simp only; field_simp
  · split
    · simp only; field_simp
    · rfl

/-! ## C24: minimum image -/

/-- The separation one component: some image of `dr`, of length at most half a
period, if `dr` is within one period. -/
theorem image1_spec (L dr : ℝ) :
    (image1 (L / 2) L dr).1 = dr + (image1 (L / 2) L dr).2 * L := by
  unfold image1
  split
  · split <;> (push_cast; ring)
  · push_cast; ring

theorem image1_half {L dr : ℝ} (h : |dr| ≤ 3 / 2 * L) : |(image1 (L / 2) L dr).1| ≤ L / 2 := by
  unfold image1
  rw [abs_le] at h
  split
  · rename_i h1
    split
    · rename_i h2
      rw [abs_of_pos h2] at h1
      simp only
      rw [abs_le]; constructor <;> linarith
    · rename_i h2
      push Not at h2
      rw [abs_of_nonpos h2] at h1
      simp only
      rw [abs_le]; constructor <;> linarith
  · rename_i h1; push Not at h1; exact h1

/-- Minimality in one dimension: a number of absolute value at most half a
period is the smallest among all its translates. -/
theorem sq_min_of_half {L v : ℝ} (_hL : 0 < L) (hv : |v| ≤ L / 2) (k : ℤ) :
    v ^ 2 ≤ (v + k * L) ^ 2 := by
  rcases eq_or_ne k 0 with rfl | hk
  · simp
  · have hk1 : (1 : ℝ) ≤ |(k : ℝ)| := by
      have : (1 : ℤ) ≤ |k| := Int.one_le_abs hk
      exact_mod_cast this
    have h1 : L ≤ |(k : ℝ) * L| := by
      rw [abs_mul, abs_of_pos _hL]; nlinarith
    have h2 : |(k : ℝ) * L| ≤ |v + k * L| + |v| := by
      have := abs_sub (v + k * L) v
      simpa using this
    apply sq_le_sq.2
    linarith

/-- Two positions within one period of each other in every direction (implied
by both lying in the primary cell). -/
def WithinPeriod (L r1 r2 : Vec) : Prop := ∀ i, |r1 i - r2 i| ≤ 3 / 2 * L i

theorem withinPeriod_of_inCell {L r1 r2 : Vec} (h1 : InCell L r1) (h2 : InCell L r2) :
    WithinPeriod L r1 r2 := by
  intro i
  have a := h1 i
  have b := h2 i
  rw [abs_le]; constructor <;> linarith

theorem Ortho.OK.sep_eq {b : Ortho} (h : b.OK) (r1 r2 : Vec) (i : Fin 3) :
    b.separation r1 r2 i = (image1 (b.lengths i / 2) (b.lengths i) (r1 i - r2 i)).1 := by
  unfold Ortho.separation; rw [h.half]

theorem Ortho.OK.trans_eq {b : Ortho} (h : b.OK) (r1 r2 : Vec) (i : Fin 3) :
    b.translate r1 r2 i = (image1 (b.lengths i / 2) (b.lengths i) (r1 i - r2 i)).2 := by
  unfold Ortho.translate; rw [h.half]

/-- **C24.** The returned separation is `r1 + translate * L - r2`, for all
positions; the returned squared distance is its squared norm. -/
theorem C24_ortho_separation {b : Ortho} (hb : b.Reach) (r1 r2 : Vec) :
    b.separation r1 r2 = r1 + latVec b.lengths (b.translate r1 r2) - r2 ∧
      b.distanceSq r1 r2 = normSq (b.separation r1 r2) := by
  constructor
  · funext i
    rw [hb.ok.sep_eq, image1_spec]
    simp only [Pi.add_apply, Pi.sub_apply, latVec, hb.ok.trans_eq]
    ring
  · simp only [Ortho.distanceSq, normSq]; ring

/-- **C24.** For positions in the primary cell the returned squared distance is
the minimum of the squared distance over *all* lattice translations, and it is
attained by the returned separation. -/
theorem C24_ortho_minimum {b : Ortho} (hb : b.Reach) (r1 r2 : Vec)
    (h : WithinPeriod b.lengths r1 r2) :
    IsLeast {x | ∃ k : IVec, x = normSq (r1 + latVec b.lengths k - r2)}
      (b.distanceSq r1 r2) := by
  obtain ⟨hs, hd⟩ := C24_ortho_separation hb r1 r2
  constructor
  · exact ⟨b.translate r1 r2, by rw [hd, hs]⟩
  · rintro x ⟨k, rfl⟩
    rw [hd]
    have key : ∀ i, (b.separation r1 r2 i) ^ 2 ≤ ((r1 + latVec b.lengths k - r2) i) ^ 2 := by
      intro i
      have hh : |b.separation r1 r2 i| ≤ b.lengths i / 2 := by
        rw [hb.ok.sep_eq]; exact image1_half (h i)
      have := sq_min_of_half (hb.ok.pos i) hh (k i - b.translate r1 r2 i)
      refine this.trans (le_of_eq ?_)
      congr 1
      rw [hs]
      simp only [Pi.add_apply, Pi.sub_apply, latVec]
      push_cast; ring
    unfold normSq
    linarith [key 0, key 1, key 2]

/-- Non-vacuity, with a pair whose minimum image crosses the boundary. -/
example : InCell ![2, 3, 5] ![1 / 10, 0, 1] ∧ InCell ![2, 3, 5] ![19 / 10, 0, 1] := by
  constructor <;> (intro i; fin_cases i <;> norm_num)

/-- **C24.** The separation is antisymmetric and the distance symmetric, for all
positions. -/
theorem C24_ortho_symm {b : Ortho} (hb : b.Reach) (r1 r2 : Vec) :
    b.separation r1 r2 = -b.separation r2 r1 ∧
      b.distanceSq r1 r2 = b.distanceSq r2 r1 := by
  have key : b.separation r1 r2 = -b.separation r2 r1 := by
    funext i
    have hp := hb.ok.pos i
    simp only [hb.ok.sep_eq, Pi.neg_apply, image1]
    rw [show r2 i - r1 i = -(r1 i - r2 i) by ring, abs_neg]
    by_cases h : |r1 i - r2 i| > b.lengths i / 2
    · simp only [if_pos h]
      by_cases h2 : r1 i - r2 i > 0
      · rw [if_pos h2, if_neg (by linarith)]; ring
      · rw [if_neg h2]
        have : r1 i - r2 i ≠ 0 := by
          intro h0; rw [h0, abs_zero] at h; linarith
        have h3 : r1 i - r2 i < 0 := lt_of_le_of_ne (by linarith) this
        rw [if_pos (by linarith)]; ring
    · simp only [if_neg h]; ring
  refine ⟨key, ?_⟩
  simp only [Ortho.distanceSq, key, Pi.neg_apply]; ring

/-- **C24.** A separation passes the minimum-image test exactly when it is no
longer than any of its lattice translates, component by component. -/
theorem C24_ortho_isMinImage {b : Ortho} (hb : b.Reach) (dr : Vec) :
    b.isMinImageCart dr ↔ ∀ i, ∀ k : ℤ, (dr i) ^ 2 ≤ (dr i + k * b.lengths i) ^ 2 := by
  unfold Ortho.isMinImageCart
  simp only [hb.ok.half]
  constructor
  · intro h i k
    exact sq_min_of_half (hb.ok.pos i) (not_lt.1 (h i)) k
  · intro h i hgt
    have hp := hb.ok.pos i
    rcases le_total 0 (dr i) with h0 | h0
    · rw [abs_of_nonneg h0] at hgt
      have := h i (-1)
      push_cast at this
      nlinarith
    · rw [abs_of_nonpos h0] at hgt
      have := h i 1
      push_cast at this
      nlinarith

/-- **C24.** The returned separation passes the minimum-image test. -/
theorem C24_ortho_separation_isMinImage {b : Ortho} (hb : b.Reach) (r1 r2 : Vec)
    (h : WithinPeriod b.lengths r1 r2) : b.isMinImageCart (b.separation r1 r2) := by
  intro i
  rw [hb.ok.sep_eq, hb.ok.half]
  exact not_lt.2 (image1_half (h i))

/-! ## C25: coordinate transformations -/

/-- **C25.** The two transformations are inverse to each other. -/
theorem C25_ortho_inverse {b : Ortho} (hb : b.Reach) (r : Vec) :
    b.toCart (b.toGen r) = r ∧ b.toGen (b.toCart r) = r := by
  constructor <;>
  · funext i
    have hp := (hb.ok.pos i).ne'
    simp only [Ortho.toCart, Ortho.toGen, hb.ok.inv]
    field_simp

/-- **C25.** Scaled coordinates lie in `[0,1)` exactly for positions in the
primary cell. -/
theorem C25_ortho_unit {b : Ortho} (hb : b.Reach) (r : Vec) :
    InCell b.lengths r ↔ InCell (fun _ => 1) (b.toGen r) := by
  unfold InCell
  refine forall_congr' fun i => ?_
  have hp := hb.ok.pos i
  simp only [Ortho.toGen, hb.ok.inv, ← div_eq_mul_inv]
  rw [le_div_iff₀ hp, div_lt_iff₀ hp]
  simp

/-- Euclidean inner product (specification). -/
def dot (u v : Vec) : ℝ := u 0 * v 0 + u 1 * v 1 + u 2 * v 2

/-- **C25.** Direct and reciprocal basis vectors are dual up to `2π`; the volume
is the determinant of the basis and is positive; Cartesian coordinates are the
combination of basis vectors with the scaled coordinates. -/
theorem C25_ortho_basis {b : Ortho} (hb : b.Reach) :
    (∀ i j, dot (b.bravais i) (b.reciprocal j) = if i = j then 2 * Real.pi else 0) ∧
    b.volume = Matrix.det (Matrix.of b.bravais) ∧ 0 < b.volume ∧
    ∀ u : Vec, b.toCart u = u 0 • b.bravais 0 + u 1 • b.bravais 1 + u 2 • b.bravais 2 := by
  have hp := fun i => (hb.ok.pos i)
  have hp' := fun i => (hb.ok.pos i).ne'
  refine ⟨?_, ?_, ?_, ?_⟩
  · intro i j
    unfold dot
    simp only [hb.ok.bravais, hb.ok.reciprocal]
    have h0 := hp' 0
    have h1 := hp' 1
    have h2 := hp' 2
    fin_cases i <;> fin_cases j <;> simp <;> field_simp
  · rw [hb.ok.volume, Matrix.det_fin_three]
    simp [hb.ok.bravais]
  · rw [hb.ok.volume]
    have := mul_pos (mul_pos (hp 0) (hp 1)) (hp 2)
    exact this
  · intro u
    funext i
    simp only [Ortho.toCart, Pi.add_apply, Pi.smul_apply, smul_eq_mul, hb.ok.bravais]
    fin_cases i <;> simp

/-- **C25.** `minLength` is the smallest of the lengths. -/
theorem C25_ortho_minLength {b : Ortho} (hb : b.Reach) :
    IsLeast (Set.range b.lengths) b.minLength := by
  obtain ⟨i, hi⟩ := hb.ok.minEq
  refine ⟨⟨i, hi.symm⟩, ?_⟩
  rintro x ⟨j, rfl⟩
  exact hb.ok.minLe j

end Verif.Boundary
