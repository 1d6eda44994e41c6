/-
Separations of the nearest image, and sums of the projectors.
-/
import Verif.Analyze.Model
import Mathlib.Analysis.SpecialFunctions.Trigonometric.Deriv
import Mathlib.Algebra.Ring.GeomSum
import Mathlib.Analysis.SpecialFunctions.Complex.Circle

set_option autoImplicit false

namespace Verif.Analyze

open Verif.Boundary

/-! ### Nearest images -/

/-- Two positions at most one and a half periods apart, whose true separation is less than half a
period: the nearest image is the true separation. -/
theorem sep_unique {b : Ortho} (hb : b.Reach) {r1 r2 D : Vec} {k : IVec}
    (hw : WithinPeriod b.lengths r1 r2) (hD : ∀ i, |D i| < b.lengths i / 2)
    (hk : r1 - r2 = D + latVec b.lengths k) :
    b.separation r1 r2 = D ∧ ∀ i, b.translate r1 r2 i = -k i := by
  obtain ⟨hs, -⟩ := C24_ortho_separation hb r1 r2
  have key : ∀ i, b.translate r1 r2 i = -k i := by
    intro i
    have hp := hb.ok.pos i
    have h1 : |b.separation r1 r2 i| ≤ b.lengths i / 2 := by
      rw [hb.ok.sep_eq]; exact image1_half (hw i)
    have h2 : b.separation r1 r2 i = D i + (k i + b.translate r1 r2 i : ℤ) * b.lengths i := by
      have e1 := congrFun hs i
      have e2 := congrFun hk i
      simp only [Pi.add_apply, Pi.sub_apply, latVec] at e1 e2
      rw [e1]; push_cast; linarith
    rw [h2] at h1
    have h3 := hD i
    rw [abs_le] at h1
    rw [abs_lt] at h3
    have a : ((k i + b.translate r1 r2 i : ℤ) : ℝ) < 1 := by
      by_contra hc; push Not at hc; nlinarith
    have c : (-1 : ℝ) < ((k i + b.translate r1 r2 i : ℤ) : ℝ) := by
      by_contra hc; push Not at hc; nlinarith
    have a' : k i + b.translate r1 r2 i < 1 := by exact_mod_cast a
    have c' : -1 < k i + b.translate r1 r2 i := by exact_mod_cast c
    omega
  refine ⟨?_, key⟩
  funext i
  have e1 := congrFun hs i
  have e2 := congrFun hk i
  simp only [Pi.add_apply, Pi.sub_apply, latVec] at e1 e2
  rw [e1, key i]; push_cast; linarith

/-- Positions known modulo the lattice. -/
def SameMod (L : Vec) (r x : Vec) : Prop := ∃ k : IVec, r = x + latVec L k

theorem latVec_add (L : Vec) (k l : IVec) : latVec L k + latVec L l = latVec L (fun i => k i + l i) := by
  funext i; simp only [latVec, Pi.add_apply]; push_cast; ring

theorem latVec_sub (L : Vec) (k l : IVec) : latVec L k - latVec L l = latVec L (fun i => k i - l i) := by
  funext i; simp only [latVec, Pi.sub_apply]; push_cast; ring

/-- The molecule `mol` is known modulo the lattice, and `X` are its true positions, with bonds
shorter than half a period. -/
structure Traces (b : Ortho) (mol X : ℕ → Vec) (nAtom : ℕ) : Prop where
  same : ∀ j, j < nAtom → SameMod b.lengths (mol j) (X j)
  within : ∀ j, j + 1 < nAtom → WithinPeriod b.lengths (mol (j + 1)) (mol j)
  short : ∀ j, j + 1 < nAtom → ∀ i, |X (j + 1) i - X j i| < b.lengths i / 2

theorem Traces.sep {b : Ortho} (hb : b.Reach) {mol X : ℕ → Vec} {n : ℕ} (h : Traces b mol X n) {j : ℕ}
    (hj : j + 1 < n) : b.separation (mol (j + 1)) (mol j) = X (j + 1) - X j := by
  obtain ⟨k, hk⟩ := h.same (j + 1) hj
  obtain ⟨l, hl⟩ := h.same j (by omega)
  refine (sep_unique hb (k := fun i => k i - l i) (h.within j hj) (D := X (j + 1) - X j)
    (fun i => h.short j hj i) ?_).1
  rw [hk, hl, ← latVec_sub]; abel

theorem Traces.sep' {b : Ortho} (hb : b.Reach) {mol X : ℕ → Vec} {n : ℕ} (h : Traces b mol X n)
    {j : ℕ} (hj : j + 1 < n) : b.separation (mol j) (mol (j + 1)) = X j - X (j + 1) := by
  rw [(C24_ortho_symm hb _ _).1, h.sep hb hj, neg_sub]

/-! ### Retraced shapes -/

theorem retrace_eq {b : Ortho} (hb : b.Reach) {mol X : ℕ → Vec} {n : ℕ} (h : Traces b mol X n) :
    ∀ j, j < n → retrace (ofOrtho b) mol j = X j + (mol 0 - X 0)
  | 0, _ => by rw [retrace]; abel
  | j + 1, hj => by
    rw [retrace, retrace_eq hb h j (by omega)]
    show _ + b.separation (mol (j + 1)) (mol j) = _
    rw [h.sep hb hj]; abel

/-- The map that the radius of gyration uses is the mirror image of the molecule. -/
theorem mapOf_eq {b : Ortho} (hb : b.Reach) {mol X : ℕ → Vec} {n : ℕ} (h : Traces b mol X n) :
    ∀ j, j < n → mapOf (ofOrtho b) mol j = mol 0 + X 0 - X j
  | 0, _ => by rw [mapOf]; abel
  | j + 1, hj => by
    rw [mapOf, mapOf_eq hb h j (by omega)]
    show _ + b.separation (mol j) (mol (j + 1)) = _
    rw [h.sep' hb hj]; abel

theorem comLoop_eq {b : Ortho} (hb : b.Reach) {mol X : ℕ → Vec} {n : ℕ} (h : Traces b mol X n)
    (r0 : Vec) : ∀ i, i < n → (comLoop (ofOrtho b) mol r0 i).1 = r0 + X i - X 0 ∧
      (comLoop (ofOrtho b) mol r0 i).2 = ∑ j ∈ Finset.range (i + 1), (r0 + X j - X 0)
  | 0, _ => by
    constructor
    · rw [comLoop]; abel
    · rw [comLoop]; simp
  | i + 1, hi => by
    obtain ⟨h1, h2⟩ := comLoop_eq hb h r0 i (by omega)
    have e : (comLoop (ofOrtho b) mol r0 (i + 1)).1 = r0 + X (i + 1) - X 0 := by
      show (comLoop (ofOrtho b) mol r0 i).1 + b.separation (mol (i + 1)) (mol i) = _
      rw [h1, h.sep hb hi]; abel
    refine ⟨e, ?_⟩
    rw [Finset.sum_range_succ, ← h2, ← e]
    rfl

/-! ### Spread of numbers about their mean -/

theorem spread (n : ℕ) (hn : 0 < n) (x : ℕ → ℝ) :
    ∑ j ∈ Finset.range n, (x j - (∑ i ∈ Finset.range n, x i) / n) ^ 2 =
      (∑ i ∈ Finset.range n, ∑ j ∈ Finset.range n, (x i - x j) ^ 2) / (2 * n) := by
  have hn' : (n : ℝ) ≠ 0 := by exact_mod_cast hn.ne'
  have e1 : ∑ i ∈ Finset.range n, ∑ j ∈ Finset.range n, (x i - x j) ^ 2 =
      2 * n * ∑ i ∈ Finset.range n, x i ^ 2 - 2 * (∑ i ∈ Finset.range n, x i) ^ 2 := by
    have : ∀ i, ∑ j ∈ Finset.range n, (x i - x j) ^ 2 =
        n * x i ^ 2 - 2 * x i * ∑ j ∈ Finset.range n, x j + ∑ j ∈ Finset.range n, x j ^ 2 := by
      intro i
      simp only [sub_sq, Finset.sum_add_distrib, Finset.sum_sub_distrib, Finset.sum_const,
        Finset.card_range, nsmul_eq_mul, Finset.mul_sum]
    simp only [this, Finset.sum_add_distrib, Finset.sum_sub_distrib, ← Finset.mul_sum,
      ← Finset.sum_mul, Finset.sum_const, Finset.card_range, nsmul_eq_mul]
    ring
  have e2 : ∀ m : ℝ, ∑ j ∈ Finset.range n, (x j - m) ^ 2 =
      ∑ j ∈ Finset.range n, x j ^ 2 - 2 * m * ∑ j ∈ Finset.range n, x j + n * m ^ 2 := by
    intro m
    simp only [sub_sq, Finset.sum_add_distrib, Finset.sum_sub_distrib, Finset.sum_const,
      Finset.card_range, nsmul_eq_mul, Finset.mul_sum]
    congr 2
    refine Finset.sum_congr rfl fun j _ => by ring
  rw [e1, e2]
  field_simp
  ring

/-! ### Sums of the projectors -/

/-- Sum of cosines. -/
theorem sum_cos (q : ℝ) (M : ℕ) : 2 * Real.sin (q / 2) * ∑ j ∈ Finset.range (M + 1), Real.cos (q * j) =
    Real.sin (q * M + q / 2) + Real.sin (q / 2) := by
  induction M with
  | zero => simp; ring
  | succ M ih =>
    rw [Finset.sum_range_succ, mul_add, ih]
    have e : Real.sin (q * (M + 1 : ℕ) + q / 2) - Real.sin (q * M + q / 2) =
        2 * Real.sin (q / 2) * Real.cos (q * (M + 1 : ℕ)) := by
      rw [show q * (M : ℝ) + q / 2 = q * (M + 1 : ℕ) - q / 2 by push_cast; ring, Real.sin_add,
        Real.sin_sub]
      ring
    linarith

/-- Sum of the cosines over a chain, for a mode number that is not a multiple of twice the number
of bonds. -/
theorem sum_cos_chain {p M : ℕ} (hM : 0 < M) (hp : ¬ 2 * M ∣ p) :
    ∑ j ∈ Finset.range (M + 1), Real.cos (Real.pi * p / M * j) = (1 + (-1) ^ p) / 2 := by
  have hM' : (M : ℝ) ≠ 0 := by exact_mod_cast hM.ne'
  have h := sum_cos (Real.pi * p / M) M
  have e1 : Real.pi * p / M * M = p * Real.pi := by field_simp
  rw [e1, add_comm (p * Real.pi), Real.sin_add_nat_mul_pi] at h
  have hs : Real.sin (Real.pi * p / M / 2) ≠ 0 := by
    rw [Ne, Real.sin_eq_zero_iff]
    rintro ⟨z, hz⟩
    apply hp
    have : (z : ℝ) * (2 * M) = p := by
      have hpi := Real.pi_ne_zero
      field_simp at hz
      linarith
    have hz' : z * (2 * M : ℕ) = (p : ℤ) := by exact_mod_cast this
    exact Int.natCast_dvd_natCast.1 ⟨z, by rw [← hz']; ring⟩
  have : 2 * Real.sin (Real.pi * p / M / 2) ≠ 0 := mul_ne_zero two_ne_zero hs
  apply mul_left_cancel₀ this
  rw [h]; ring

/-- Sum of the linear projector. -/
theorem sum_linear (p : ℕ) {N : ℕ} (hN : 2 ≤ N) :
    ∑ j ∈ Finset.range N, linearProjector p N j =
      ((if p = 0 then (N : ℝ) else ∑ j ∈ Finset.range N, Real.cos (Real.pi * p / (N - 1) * j)) - 1) / N := by
  have hN' : (N : ℝ) ≠ 0 := by
    have : N ≠ 0 := by omega
    exact_mod_cast this
  have e : ∀ j, linearProjector p N j = (if p = 0 then 1 / (N : ℝ) else
      1 / N * Real.cos (Real.pi * p / (N - 1) * j)) - (if j = 0 then 1 / 2 / (N : ℝ) else 0)
        - (if j = N - 1 then 1 / 2 / (N : ℝ) else 0) := by
    intro j
    unfold linearProjector
    simp only
    split_ifs <;> ring
  simp only [e, Finset.sum_sub_distrib]
  rw [Finset.sum_ite_eq' (Finset.range N) 0, Finset.sum_ite_eq' (Finset.range N) (N - 1),
    if_pos (Finset.mem_range.2 (by omega)), if_pos (Finset.mem_range.2 (by omega))]
  by_cases h : p = 0
  · simp only [h, if_true, Finset.sum_const, Finset.card_range, nsmul_eq_mul]
    field_simp
    ring
  · simp only [h, if_false, ← Finset.mul_sum]
    field_simp
    ring

/-- Sum of the powers of a root of unity. -/
theorem sum_root {N k : ℕ} (hN : 0 < N) :
    (Complex.exp (2 * Real.pi * Complex.I * k / N) - 1) *
      ∑ j ∈ Finset.range N, Complex.exp (2 * Real.pi * Complex.I * k / N * j) = 0 := by
  have hN' : (N : ℂ) ≠ 0 := by exact_mod_cast hN.ne'
  have : ∀ j : ℕ, Complex.exp (2 * Real.pi * Complex.I * k / N * j) =
      Complex.exp (2 * Real.pi * Complex.I * k / N) ^ j := fun j => by
    rw [← Complex.exp_nat_mul]; ring_nf
  simp only [this]
  rw [mul_comm, geom_sum_mul, ← Complex.exp_nat_mul]
  have : (N : ℂ) * (2 * Real.pi * Complex.I * k / N) = k * (2 * Real.pi * Complex.I) := by
    field_simp
  rw [this, Complex.exp_nat_mul_two_pi_mul_I]
  simp

theorem exp_ne_one {N k : ℕ} (hN : 0 < N) (hk : ¬ N ∣ k) :
    Complex.exp (2 * Real.pi * Complex.I * k / N) ≠ 1 := by
  rw [Ne, Complex.exp_eq_one_iff]
  rintro ⟨z, hz⟩
  apply hk
  have hN' : (N : ℂ) ≠ 0 := by exact_mod_cast hN.ne'
  have hpi : (2 * Real.pi * Complex.I : ℂ) ≠ 0 := Complex.two_pi_I_ne_zero
  have h1 : (2 * Real.pi * Complex.I : ℂ) * k = (2 * Real.pi * Complex.I) * (z * N) := by
    field_simp at hz
    linear_combination (2 * Real.pi * Complex.I : ℂ) * hz
  have h2 := mul_left_cancel₀ hpi h1
  have h3 : (k : ℤ) = z * N := by exact_mod_cast h2
  exact Int.natCast_dvd_natCast.1 ⟨z, by rw [h3]; ring⟩

theorem root_cos_sin (N k j : ℕ) : Complex.exp (2 * Real.pi * Complex.I * k / N * j) =
    (Real.cos (2 * Real.pi * k / N * j) : ℂ) + Real.sin (2 * Real.pi * k / N * j) * Complex.I := by
  have : (2 * Real.pi * Complex.I * k / N * j : ℂ) =
      ((2 * Real.pi * k / N * j : ℝ) : ℂ) * Complex.I := by push_cast; ring
  rw [this, Complex.exp_mul_I]
  push_cast; ring

theorem sum_ring_root {N k : ℕ} (hN : 0 < N) (hk : ¬ N ∣ k) :
    ∑ j ∈ Finset.range N, Real.cos (2 * Real.pi * k / N * j) = 0 ∧
    ∑ j ∈ Finset.range N, Real.sin (2 * Real.pi * k / N * j) = 0 := by
  have h := sum_root (k := k) hN
  rcases mul_eq_zero.1 h with h | h
  · exact absurd (sub_eq_zero.1 h) (exp_ne_one hN hk)
  · simp only [root_cos_sin, Finset.sum_add_distrib, ← Finset.sum_mul] at h
    rw [← Complex.ofReal_sum, ← Complex.ofReal_sum] at h
    generalize (∑ j ∈ Finset.range N, Real.cos (2 * Real.pi * k / N * j)) = x at h ⊢
    generalize (∑ j ∈ Finset.range N, Real.sin (2 * Real.pi * k / N * j)) = y at h ⊢
    constructor
    · have := congrArg Complex.re h; simpa using this
    · have := congrArg Complex.im h; simpa using this

end Verif.Analyze
