import Verif.Boundary.Ortho

/-!
# Properties C23, C25, C26 for the monoclinic boundary
-/

namespace Verif.Boundary

/-! ## Specification -/

/-- Boundaries reachable through the public interface with positive lengths. -/
inductive Mono.Reach : Mono → Prop
  | default : Reach Mono.default
  | mono {b} (l : Vec) (d : ℝ) (h : ∀ i, 0 < l i) : Reach b → Reach (b.setMonoclinic l d)
  | ortho {b} (l : Vec) (h : ∀ i, 0 < l i) : Reach b → Reach (b.setOrthorhombic l)

/-- Integer combination of three basis vectors. -/
def latComb (a : Fin 3 → Vec) (k : IVec) : Vec :=
  (k 0 : ℝ) • a 0 + (k 1 : ℝ) • a 1 + (k 2 : ℝ) • a 2

/-- The unit cube of scaled coordinates. -/
def InUnit (u : Vec) : Prop := ∀ i, 0 ≤ u i ∧ u i < 1

/-! ## Consistency -/

/-- All derived members agree with `l` and `d`. -/
structure Mono.OK (b : Mono) : Prop where
  pos : ∀ i, 0 < b.l i
  minima : ∀ i, b.minima i = 0
  maxima : ∀ i, b.maxima i = b.l i
  half : ∀ i, b.half i = b.l i / 2
  inv : ∀ i, b.inv i = (b.l i)⁻¹
  c3 : b.c3 = -b.d / b.l 1
  volume : b.volume = b.l 0 * b.l 1 * b.l 2
  bravais : b.bravais = ![![b.l 0, 0, 0], ![0, b.l 1, b.d], ![0, 0, b.l 2]]
  reciprocal : b.reciprocal = ![![2 * Real.pi / b.l 0, 0, 0], ![0, 2 * Real.pi / b.l 1, 0],
    ![0, -(2 * Real.pi) * b.d / (b.l 1 * b.l 2), 2 * Real.pi / b.l 2]]
  lengths : b.lengths = ![b.l 0, b.l 1, b.l 2 / Real.sqrt (1 + b.c3 * b.c3)]
  minLe : ∀ i, b.minLength ≤ b.lengths i
  minEq : ∃ i, b.minLength = b.lengths i

theorem Mono.default_ok : Mono.default.OK := by
  constructor
  · intro i; simp [Mono.default]
  · intro i; rfl
  · intro i; rfl
  · intro i; rfl
  · intro i; simp [Mono.default]
  · simp [Mono.default]
  · simp [Mono.default]
  · funext i j; fin_cases i <;> fin_cases j <;> simp [Mono.default, setc]
  · funext i j; fin_cases i <;> fin_cases j <;> simp [Mono.default, setc]
  · funext i; fin_cases i <;> simp [Mono.default]
  · intro i; exact le_rfl
  · exact ⟨0, rfl⟩

/-- The off-diagonal elements that `reset` never writes. -/
structure Mono.OffDiag (b : Mono) : Prop where
  b01 : b.bravais 0 1 = 0
  b02 : b.bravais 0 2 = 0
  b10 : b.bravais 1 0 = 0
  b20 : b.bravais 2 0 = 0
  b21 : b.bravais 2 1 = 0
  r01 : b.reciprocal 0 1 = 0
  r02 : b.reciprocal 0 2 = 0
  r10 : b.reciprocal 1 0 = 0
  r12 : b.reciprocal 1 2 = 0
  r20 : b.reciprocal 2 0 = 0

theorem Mono.OK.offDiag {b : Mono} (h : b.OK) : b.OffDiag := by
  constructor <;> first | (rw [h.bravais]; simp) | (rw [h.reciprocal]; simp)

theorem Mono.reset_ok {b : Mono} (h : b.OffDiag) (l : Vec) (d : ℝ) (hl : ∀ i, 0 < l i) :
    (Mono.reset { b with l := l, d := d }).OK := by
  constructor
  · exact hl
  · intro i; rfl
  · intro i; rfl
  · intro i; simp only [Mono.reset]; ring
  · intro i; simp only [Mono.reset, one_div]
  · rfl
  · rfl
  · funext i j
    fin_cases i <;> fin_cases j <;>
      simp [Mono.reset, setc, Function.update_apply, h.b01, h.b02, h.b10, h.b20, h.b21]
  · funext i j
    fin_cases i <;> fin_cases j <;>
      simp [Mono.reset, setc, Function.update_apply, h.r01, h.r02, h.r10, h.r12, h.r20]
  · rfl
  · intro i; exact minOf_le _ i
  · exact minOf_eq _

theorem Mono.Reach.ok {b : Mono} (h : b.Reach) : b.OK := by
  induction h with
  | default => exact Mono.default_ok
  | mono l d hl _ ih => exact Mono.reset_ok ih.offDiag l d hl
  | ortho l hl _ ih => exact Mono.reset_ok ih.offDiag l 0 hl

/-- Every choice of lengths and tilt is reachable. -/
theorem reach_mono (l : Vec) (d : ℝ) (h : ∀ i, 0 < l i) :
    ∃ b : Mono, b.Reach ∧ b.l = l ∧ b.d = d :=
  ⟨_, .mono l d h .default, rfl, rfl⟩

example : ∃ b : Mono, b.Reach ∧ b.l = ![1, 1, 1] ∧ b.d = 1 / 2 :=
  reach_mono _ _ (by intro i; fin_cases i <;> simp)

theorem Mono.OK.lat {b : Mono} (h : b.OK) (k : IVec) :
    latComb b.bravais k = ![k 0 * b.l 0, k 1 * b.l 1, k 2 * b.l 2 + k 1 * b.d] := by
  funext i
  rw [latComb, h.bravais]
  fin_cases i <;> simp
  ring

/-! ## C25: coordinate transformations -/

/-- **C25 (monoclinic).** The two transformations are inverse to each other. -/
theorem C25_mono_inverse {b : Mono} (hb : b.Reach) (r : Vec) :
    b.toCart (b.toGen r) = r ∧ b.toGen (b.toCart r) = r := by
  have h0 := (hb.ok.pos 0).ne'
  have h1 := (hb.ok.pos 1).ne'
  have h2 := (hb.ok.pos 2).ne'
  constructor
  · funext i
    fin_cases i <;> simp [Mono.toCart, Mono.toGen, hb.ok.inv, hb.ok.c3] <;> field_simp
    ring
  · funext i
    fin_cases i <;> simp [Mono.toCart, Mono.toGen, hb.ok.inv, hb.ok.c3] <;> field_simp
    ring

/-- **C25 (monoclinic).** Direct and reciprocal basis vectors are dual up to
`2π`; the volume is the (positive) determinant of the basis; Cartesian
coordinates are the combination of basis vectors with the scaled coordinates. -/
theorem C25_mono_basis {b : Mono} (hb : b.Reach) :
    (∀ i j, dot (b.bravais i) (b.reciprocal j) = if i = j then 2 * Real.pi else 0) ∧
    b.volume = Matrix.det (Matrix.of b.bravais) ∧ 0 < b.volume ∧
    ∀ u : Vec, b.toCart u = u 0 • b.bravais 0 + u 1 • b.bravais 1 + u 2 • b.bravais 2 := by
  have p := hb.ok.pos
  have h0 := (hb.ok.pos 0).ne'
  have h1 := (hb.ok.pos 1).ne'
  have h2 := (hb.ok.pos 2).ne'
  refine ⟨?_, ?_, ?_, ?_⟩
  · intro i j
    unfold dot
    rw [hb.ok.bravais, hb.ok.reciprocal]
    fin_cases i <;> fin_cases j <;> simp <;> field_simp
    ring
  · rw [hb.ok.volume, Matrix.det_fin_three]
    simp [hb.ok.bravais]
  · rw [hb.ok.volume]; exact mul_pos (mul_pos (p 0) (p 1)) (p 2)
  · intro u
    rw [hb.ok.bravais]
    funext i
    fin_cases i <;> simp [Mono.toCart]
    ring

/-- **C25 (monoclinic).** The lengths are the distances between opposite faces:
the displacement along axis `i` between two parallel lattice planes, i.e. for
every vector, `length i * |scaled coordinate i|` is at most its norm, and this is
the best possible constant. -/
theorem C25_mono_lengths {b : Mono} (hb : b.Reach) (i : Fin 3) :
    (∀ v : Vec, (b.lengths i * b.toGen v i) ^ 2 ≤ normSq v) ∧
    (∃ v : Vec, (b.lengths i * b.toGen v i) ^ 2 = normSq v ∧ b.toGen v i = 1) := by
  have h0 := (hb.ok.pos 0).ne'
  have h1 := (hb.ok.pos 1).ne'
  have h2 := (hb.ok.pos 2).ne'
  have hc : 0 < 1 + b.c3 * b.c3 := by nlinarith [mul_self_nonneg b.c3]
  have hs : Real.sqrt (1 + b.c3 * b.c3) ^ 2 = 1 + b.c3 * b.c3 := Real.sq_sqrt hc.le
  have hsp : 0 < Real.sqrt (1 + b.c3 * b.c3) := Real.sqrt_pos.2 hc
  constructor
  · intro v
    unfold normSq Mono.toGen
    rw [hb.ok.lengths]
    simp only [hb.ok.inv]
    fin_cases i
    · simp only [Fin.zero_eta, Matrix.cons_val_zero]
      rw [show b.l 0 * (v 0 * (b.l 0)⁻¹) = v 0 by field_simp]
      nlinarith [sq_nonneg (v 1), sq_nonneg (v 2)]
    · simp only [Fin.mk_one, Matrix.cons_val_one, Matrix.cons_val_zero]
      rw [show b.l 1 * (v 1 * (b.l 1)⁻¹) = v 1 by field_simp]
      nlinarith [sq_nonneg (v 0), sq_nonneg (v 2)]
    · simp only [Fin.reduceFinMk, Matrix.cons_val]
      rw [show b.l 2 / Real.sqrt (1 + b.c3 * b.c3) * ((v 2 + b.c3 * v 1) * (b.l 2)⁻¹)
        = (v 2 + b.c3 * v 1) / Real.sqrt (1 + b.c3 * b.c3) by field_simp]
      rw [div_pow, hs, div_le_iff₀ hc]
      nlinarith [sq_nonneg (v 0), sq_nonneg (b.c3 * v 2 - v 1),
        mul_nonneg (sq_nonneg (v 0)) (sq_nonneg b.c3)]
  · fin_cases i
    · refine ⟨![b.l 0, 0, 0], ?_, ?_⟩
      · simp [hb.ok.lengths, normSq, Mono.toGen, hb.ok.inv, h0]
      · simp [Mono.toGen, hb.ok.inv, h0]
    · refine ⟨![0, b.l 1, 0], ?_, ?_⟩
      · simp [hb.ok.lengths, normSq, Mono.toGen, hb.ok.inv, h1]
      · simp [Mono.toGen, hb.ok.inv, h1]
    · refine ⟨![0, b.c3 * b.l 2 / (1 + b.c3 * b.c3), b.l 2 / (1 + b.c3 * b.c3)], ?_, ?_⟩
      · simp only [hb.ok.lengths, normSq, Mono.toGen, hb.ok.inv, Fin.reduceFinMk,
          Matrix.cons_val]
        have e : (b.l 2 / (1 + b.c3 * b.c3) + b.c3 * (b.c3 * b.l 2 / (1 + b.c3 * b.c3)))
            = b.l 2 := by field_simp
        rw [e]
        rw [show b.l 2 * (b.l 2)⁻¹ = 1 by field_simp, mul_one, div_pow, hs]
        field_simp
        simp
        ring
      · simp only [Mono.toGen, hb.ok.inv, Fin.reduceFinMk, Matrix.cons_val]
        field_simp

/-! ## C23: wrapping -/

theorem shift1_one_zero (x : ℝ) : shift1 0 1 1 x =
    if x ≥ 1 then (x - 1, 1) else if x < 0 then (x + 1, -1) else (x, 0) := rfl

/-- **C23 (monoclinic).** Wrapping in Cartesian coordinates is wrapping of the
scaled coordinates, and the counters reconstruct the unwrapped position, for
every position and all initial counters. -/
theorem C23_mono_shift_counts {b : Mono} (hb : b.Reach) (r : Vec) (s : IVec) :
    (b.shiftI r s).1 + latComb b.bravais (b.shiftI r s).2 = r + latComb b.bravais s ∧
    b.toGen (b.shiftI r s).1 = shiftGen (b.toGen r) ∧
    (b.shiftI r s).2 = (shiftGenI (b.toGen r) s).2 := by
  have p0 := hb.ok.pos 0
  have p1 := hb.ok.pos 1
  have p2 := hb.ok.pos 2
  have h0 := p0.ne'
  have h1 := p1.ne'
  have h2 := p2.ne'
  have c0 : ∀ x : ℝ, (x * (b.l 0)⁻¹ ≥ 1 ↔ x ≥ b.l 0) ∧ (x * (b.l 0)⁻¹ < 0 ↔ x < 0) := by
    intro x
    rw [ge_iff_le, ge_iff_le, ← div_eq_mul_inv, le_div_iff₀ p0, one_mul, div_lt_iff₀ p0, zero_mul]
    exact ⟨Iff.rfl, Iff.rfl⟩
  have c1 : ∀ x : ℝ, (x * (b.l 1)⁻¹ ≥ 1 ↔ x ≥ b.l 1) ∧ (x * (b.l 1)⁻¹ < 0 ↔ x < 0) := by
    intro x
    rw [ge_iff_le, ge_iff_le, ← div_eq_mul_inv, le_div_iff₀ p1, one_mul, div_lt_iff₀ p1, zero_mul]
    exact ⟨Iff.rfl, Iff.rfl⟩
  have c2 : ∀ x : ℝ, (x * (b.l 2)⁻¹ ≥ 1 ↔ x ≥ b.l 2) ∧ (x * (b.l 2)⁻¹ < 0 ↔ x < 0) := by
    intro x
    rw [ge_iff_le, ge_iff_le, ← div_eq_mul_inv, le_div_iff₀ p2, one_mul, div_lt_iff₀ p2, zero_mul]
    exact ⟨Iff.rfl, Iff.rfl⟩
  have u1 : r 2 - b.d + b.c3 * (r 1 - b.l 1) = r 2 + b.c3 * r 1 := by
    rw [hb.ok.c3]; field_simp; ring
  have u2 : r 2 + b.d + b.c3 * (r 1 + b.l 1) = r 2 + b.c3 * r 1 := by
    rw [hb.ok.c3]; field_simp; ring
  have hdc : b.c3 * b.l 1 = -b.d := by rw [hb.ok.c3]; field_simp
  rw [hb.ok.lat, hb.ok.lat]
  simp only [Mono.shiftI, shiftGenI, Mono.toGen, shift1, hb.ok.minima, hb.ok.maxima,
    hb.ok.inv]
  refine ⟨?_, ?_, ?_⟩
  · split_ifs <;>
    · funext i
      fin_cases i <;> simp <;> ring
  · have e0 := c0 (r 0)
    have e1 := c1 (r 1)
    have e2 := c2 (r 2 + b.c3 * r 1)
    funext i
    fin_cases i
    · simp only [shiftGen, shift1, Fin.zero_eta, Matrix.cons_val_zero, e0.1, e0.2]
      split_ifs <;> simp only <;> field_simp
    · simp only [shiftGen, shift1, Fin.mk_one, Matrix.cons_val_one, Matrix.cons_val_zero, e1.1, e1.2]
      split_ifs <;> simp only <;> field_simp
    · simp only [shiftGen, shift1, Fin.reduceFinMk, Matrix.cons_val, e2.1, e2.2]
      by_cases q1 : r 1 ≥ b.l 1
      · simp only [if_pos q1, u1]; split_ifs <;> simp only <;> field_simp <;> linarith
      · by_cases q2 : r 1 < 0
        · simp only [if_neg q1, if_pos q2, u2]; split_ifs <;> simp only <;> field_simp <;> linarith
        · simp only [if_neg q1, if_neg q2]; split_ifs <;> simp only <;> field_simp <;> ring
  · have e0 := c0 (r 0)
    have e1 := c1 (r 1)
    have e2 := c2 (r 2 + b.c3 * r 1)
    funext i
    fin_cases i
    · simp only [Fin.zero_eta, Matrix.cons_val_zero, e0.1, e0.2]
      split_ifs <;> rfl
    · simp only [Fin.mk_one, Matrix.cons_val_one, Matrix.cons_val_zero, e1.1, e1.2]
      split_ifs <;> rfl
    · simp only [Fin.reduceFinMk, Matrix.cons_val, e2.1, e2.2]
      by_cases q1 : r 1 ≥ b.l 1
      · simp only [if_pos q1, u1]; split_ifs <;> rfl
      · by_cases q2 : r 1 < 0
        · simp only [if_neg q1, if_pos q2, u2]; split_ifs <;> rfl
        · simp only [if_neg q1, if_neg q2]; split_ifs <;> rfl

/-- **C23 (monoclinic).** A position at most one period outside the cell (in
scaled coordinates) is wrapped into the primary cell and changed by a lattice
vector only. -/
theorem C23_mono_shift {b : Mono} (hb : b.Reach) (r : Vec)
    (hr : NearCell (fun _ => 1) (b.toGen r)) :
    InUnit (b.toGen (b.shift r)) ∧ ∃ k : IVec, r = b.shift r + latComb b.bravais k := by
  obtain ⟨h1, h2, _⟩ := C23_mono_shift_counts hb r (fun _ => 0)
  refine ⟨?_, (b.shiftI r (fun _ => 0)).2, ?_⟩
  · intro i
    unfold Mono.shift
    rw [h2]
    exact shift1_range (hr i).1 (hr i).2
  · have : latComb b.bravais (fun _ => 0) = 0 := by simp [latComb]
    rw [this, add_zero] at h1
    exact h1.symm

/-- **C23 (monoclinic).** `applyShift` adds a multiple of the basis vector, and
wrapping undoes a displacement by one period. -/
theorem C23_mono_applyShift {b : Mono} (hb : b.Reach) (r : Vec) (i : Fin 3) (t : ℤ) :
    b.applyShift r i t = r + (t : ℝ) • b.bravais i := by
  rw [hb.ok.bravais]
  fin_cases i <;> (funext j; fin_cases j <;> simp [Mono.applyShift])

/-! ## C26: minimum image -/

/-- **C26.** The separation returned is an image of `r1 - r2`, displaced by the
lattice vector given by `translate`. -/
theorem C26_mono_separation {b : Mono} (hb : b.Reach) (r1 r2 : Vec) :
    (b.image r1 r2).1 = r1 - r2 + latComb b.bravais (b.image r1 r2).2 ∧
    b.distanceSq r1 r2 = normSq (b.image r1 r2).1 := by
  constructor
  · rw [hb.ok.lat]
    simp only [Mono.image, image1]
    split_ifs <;>
    · funext i
      fin_cases i <;> simp <;> ring
  · simp only [Mono.distanceSq, normSq]; ring

/-- Scaled coordinates of the returned separation are at most one half in
absolute value, if the positions are within one period. -/
theorem mono_image_half {b : Mono} (hb : b.Reach) (r1 r2 : Vec)
    (h : WithinPeriod (fun _ => 1) (b.toGen r1) (b.toGen r2)) :
    ∀ i, |b.toGen (b.image r1 r2).1 i| ≤ 1 / 2 := by
  have p0 := hb.ok.pos 0
  have p1 := hb.ok.pos 1
  have p2 := hb.ok.pos 2
  have hdc : b.c3 * b.l 1 = -b.d := by rw [hb.ok.c3]; field_simp
  have hg : ∀ i, |b.toGen (r1 - r2) i| ≤ 3 / 2 := by
    intro i
    have := h i
    have e : b.toGen r1 i - b.toGen r2 i = b.toGen (r1 - r2) i := by
      fin_cases i <;> simp [Mono.toGen] <;> ring
    rw [e] at this
    linarith
  -- the scaled coordinates of the image are images of the scaled coordinates
  have key : ∀ i, b.toGen (b.image r1 r2).1 i = (image1 (1 / 2) 1 (b.toGen (r1 - r2) i)).1 := by
    have scale : ∀ (L x : ℝ), 0 < L → (image1 (1 / 2) 1 (x * L⁻¹)).1
        = (image1 (L / 2) L x).1 * L⁻¹ := by
      intro L x hL
      unfold image1
      have e1 : (|x * L⁻¹| > 1 / 2) ↔ (|x| > L / 2) := by
        rw [abs_mul, abs_of_pos (inv_pos.2 hL), gt_iff_lt, gt_iff_lt, ← div_eq_mul_inv,
          lt_div_iff₀ hL]
        constructor <;> intro h <;> linarith
      have e2 : (x * L⁻¹ > 0) ↔ (x > 0) := by
        rw [gt_iff_lt, gt_iff_lt, ← div_eq_mul_inv, lt_div_iff₀ hL, zero_mul]
      simp only [e1, e2]
      split_ifs <;> simp only <;> field_simp
    intro i
    fin_cases i
    · simp only [Mono.toGen, Fin.zero_eta, Matrix.cons_val_zero, hb.ok.inv, Pi.sub_apply]
      rw [scale _ _ p0]
      simp only [Mono.image, hb.ok.half, Matrix.cons_val_zero]
    · simp only [Mono.toGen, Fin.mk_one, Matrix.cons_val_one, Matrix.cons_val_zero, hb.ok.inv,
        Pi.sub_apply]
      rw [scale _ _ p1]
      simp only [Mono.image, hb.ok.half, Matrix.cons_val_one, Matrix.cons_val_zero, image1]
      split_ifs <;> rfl
    · simp only [Mono.toGen, Fin.reduceFinMk, Matrix.cons_val, hb.ok.inv, Pi.sub_apply]
      rw [scale _ _ p2]
      simp only [Mono.image, hb.ok.half, Matrix.cons_val, image1]
      congr 1
      split_ifs <;> simp only [Matrix.cons_val_one, Matrix.cons_val_zero] <;> linarith
  intro i
  rw [key]
  have := image1_half (L := 1) (dr := b.toGen (r1 - r2) i) (by linarith [hg i])
  simpa using this

/-- **C26.** For positions in (or within one period of) the primary cell: if
some periodic image of the separation is shorter than half the minimum plane
spacing, then the returned separation is that image, so the returned value is
the minimum over all images. -/
theorem C26_mono_minimum {b : Mono} (hb : b.Reach) (r1 r2 : Vec)
    (h : WithinPeriod (fun _ => 1) (b.toGen r1) (b.toGen r2)) (k : IVec)
    (hk : normSq (r1 - r2 + latComb b.bravais k) < (b.minLength / 2) ^ 2) :
    (b.image r1 r2).1 = r1 - r2 + latComb b.bravais k ∧
    IsLeast {x | ∃ k : IVec, x = normSq (r1 - r2 + latComb b.bravais k)}
      (b.distanceSq r1 r2) := by
  have p0 := hb.ok.pos 0
  have p1 := hb.ok.pos 1
  have p2 := hb.ok.pos 2
  have hminpos : 0 < b.minLength := by
    obtain ⟨i, hi⟩ := hb.ok.minEq
    rw [hi, hb.ok.lengths]
    have hc : 0 < 1 + b.c3 * b.c3 := by nlinarith [mul_self_nonneg b.c3]
    have hsp : 0 < Real.sqrt (1 + b.c3 * b.c3) := Real.sqrt_pos.2 hc
    fin_cases i
    · exact p0
    · exact p1
    · exact div_pos p2 hsp
  obtain ⟨hsep, hdist⟩ := C26_mono_separation hb r1 r2
  -- uniqueness of short images
  have uniq : ∀ k' : IVec, normSq (r1 - r2 + latComb b.bravais k') < (b.minLength / 2) ^ 2 →
      k' = (b.image r1 r2).2 := by
    intro k' hk'
    have hsmall : ∀ i, |b.toGen (r1 - r2 + latComb b.bravais k') i| < 1 / 2 := by
      intro i
      have h1 := (C25_mono_lengths hb i).1 (r1 - r2 + latComb b.bravais k')
      have h2 := hb.ok.minLe i
      have h3 : (b.lengths i * b.toGen (r1 - r2 + latComb b.bravais k') i) ^ 2
          < (b.minLength / 2) ^ 2 := lt_of_le_of_lt h1 hk'
      have h4 := abs_lt_of_sq_lt_sq h3 (by linarith)
      rw [abs_mul, abs_of_pos (by linarith : 0 < b.lengths i)] at h4
      by_contra hge
      push Not at hge
      nlinarith
    have hhalf := mono_image_half hb r1 r2 h
    have hlin : ∀ i, b.toGen (r1 - r2 + latComb b.bravais k') i
        = b.toGen (b.image r1 r2).1 i + ((k' i - (b.image r1 r2).2 i : ℤ) : ℝ) := by
      rw [hsep, hb.ok.lat, hb.ok.lat]
      intro i
      have := p0.ne'
      have := p1.ne'
      have := p2.ne'
      fin_cases i
      · simp [Mono.toGen, hb.ok.inv]; field_simp; ring
      · simp [Mono.toGen, hb.ok.inv]; field_simp; ring
      · simp [Mono.toGen, hb.ok.inv, hb.ok.c3]; field_simp; ring
    funext i
    have a1 := hsmall i
    have a2 := hhalf i
    rw [hlin i] at a1
    have a3 : |((k' i - (b.image r1 r2).2 i : ℤ) : ℝ)| < 1 := by
      have := abs_sub (b.toGen (b.image r1 r2).1 i
        + ((k' i - (b.image r1 r2).2 i : ℤ) : ℝ)) (b.toGen (b.image r1 r2).1 i)
      rw [add_sub_cancel_left] at this
      linarith
    have a4 : |k' i - (b.image r1 r2).2 i| < 1 := by exact_mod_cast a3
    have := Int.abs_lt_one_iff.1 a4
    linarith
  have hkeq := uniq k hk
  refine ⟨by rw [hsep, hkeq], ⟨(b.image r1 r2).2, by rw [hdist, hsep]⟩, ?_⟩
  rintro x ⟨k', rfl⟩
  rw [hdist, hsep]
  by_cases hlt : normSq (r1 - r2 + latComb b.bravais k') < (b.minLength / 2) ^ 2
  · rw [← uniq k' hlt]
  · push Not at hlt
    rw [← hkeq]
    linarith

/-- Non-vacuity of C26: a tilted cell and a pair whose closest image crosses the
tilted boundary. -/
example : ∃ b : Mono, b.Reach ∧
    WithinPeriod (fun _ => 1) (b.toGen ![1, 9, 7]) (b.toGen ![1, 1, 3]) ∧
    normSq (![1, 9, 7] - ![1, 1, 3] + latComb b.bravais ![0, -1, 0]) = 2 ^ 2 + 0 ^ 2 ∧
    b.d = 4 := by
  refine ⟨_, .mono ![10, 10, 10] 4 (by intro i; fin_cases i <;> norm_num) .default, ?_, ?_, rfl⟩
  · intro i
    fin_cases i <;>
      simp only [Matrix.cons_val, Mono.toGen, Mono.setMonoclinic, Mono.reset, abs_le] <;>
      norm_num
  · simp [normSq, latComb, Mono.setMonoclinic, Mono.reset, Mono.default, setc]
    norm_num

/-- **C26, limit of validity.** Beyond half the minimum plane spacing the
returned value is *not* always the minimum over images: there are two positions
in the primary cell of a tilted cell for which another image is closer. -/
theorem C26_mono_not_global_minimum :
    ∃ (b : Mono) (r1 r2 : Vec) (k : IVec), b.Reach ∧ InUnit (b.toGen r1) ∧ InUnit (b.toGen r2) ∧
      normSq (r1 - r2 + latComb b.bravais k) < b.distanceSq r1 r2 := by
  refine ⟨_, ![0, 1 / 2, 3 / 4], ![0, 0, 0], ![0, -1, 0],
    .mono ![1, 1, 1] (1 / 2) (by intro i; fin_cases i <;> norm_num) .default, ?_, ?_, ?_⟩
  · intro i
    fin_cases i <;>
      simp only [Matrix.cons_val, Mono.toGen, Mono.setMonoclinic, Mono.reset] <;>
      norm_num
  · intro i
    fin_cases i <;>
      simp only [Matrix.cons_val, Mono.toGen, Mono.setMonoclinic, Mono.reset] <;>
      norm_num
  · have h : Mono.distanceSq (Mono.setMonoclinic Mono.default ![1, 1, 1] (1 / 2))
        ![0, 1 / 2, 3 / 4] ![0, 0, 0] = 1 / 4 + 9 / 16 := by
      simp only [Mono.distanceSq, Mono.image, image1, Mono.setMonoclinic, Mono.reset,
        Matrix.cons_val]
      norm_num [abs_of_pos]
    rw [h]
    simp [normSq, latComb, Mono.setMonoclinic, Mono.reset, Mono.default, setc]
    norm_num

end Verif.Boundary
