import Verif.Spme.Spline

/-!
# Charges on the grid
-/

set_option autoImplicit false

namespace Verif.Spme

open Verif.Boundary Verif.Cpp Verif.Cpp.Out Verif.Ewald

theorem mem_grid {dim : Fin 3 → ℕ} {k : IVec} : k ∈ grid dim ↔ ∀ i, 0 ≤ k i ∧ k i < dim i := by
  simp [grid, Fintype.mem_piFinset]

theorem sum_update (dim : Fin 3 → ℕ) (rho : IVec → ℝ) {k : IVec} (hk : k ∈ grid dim) (x : ℝ)
    (f : IVec → ℂ) : ∑ n ∈ grid dim, (Function.update rho k (rho k + x) n : ℂ) * f n =
      ∑ n ∈ grid dim, (rho n : ℂ) * f n + x * f k := by
  have : ∀ n ∈ grid dim, (Function.update rho k (rho k + x) n : ℂ) * f n =
      (rho n : ℂ) * f n + if n = k then x * f k else 0 := by
    intro n _
    by_cases h : n = k
    · subst h; simp [add_mul]
    · simp [h]
  rw [Finset.sum_congr rfl this, Finset.sum_add_distrib, Finset.sum_ite_eq' (grid dim) k, if_pos hk]

/-- What spreading a charge does to any linear function of the grid. -/
theorem spread_ok (dim : Fin 3 → ℕ) (q : ℝ) : ∀ (l : List (IVec × ℝ)) (rho : IVec → ℝ),
    (∀ p ∈ l, p.1 ∈ grid dim) → ∃ rho', spread dim q l rho = .ok rho' ∧
      ∀ f : IVec → ℂ, ∑ n ∈ grid dim, (rho' n : ℂ) * f n =
        ∑ n ∈ grid dim, (rho n : ℂ) * f n + q * (l.map fun p => (p.2 : ℂ) * f p.1).sum
  | [], rho, _ => ⟨rho, rfl, fun f => by simp⟩
  | (k, w) :: l, rho, h => by
    have hk : k ∈ grid dim := h (k, w) (by simp)
    obtain ⟨rho', h1, h2⟩ := spread_ok dim q l (Function.update rho k (rho k + q * w))
      (fun p hp => h p (by simp [hp]))
    refine ⟨rho', by rw [spread, if_pos hk, h1], fun f => ?_⟩
    rw [h2, sum_update dim rho hk]
    simp only [List.map_cons, List.sum_cons]
    push_cast
    ring

theorem floor_bounds {dim : ℕ} {x : ℝ} (h0 : 0 ≤ x) (h1 : x < 1) (hd : 0 < dim) :
    0 ≤ ⌊x * dim⌋ ∧ ⌊x * dim⌋ < dim := by
  have hd' : (0 : ℝ) < dim := by exact_mod_cast hd
  refine ⟨Int.floor_nonneg.2 (by positivity), ?_⟩
  rw [Int.floor_lt]
  push_cast
  nlinarith

theorem stencil_mem {dim : ℕ} (hd : 4 ≤ dim) {x : ℝ} (h0 : 0 ≤ x) (h1 : x < 1) {p : ℤ × ℝ}
    (hp : p ∈ stencil dim x) : 0 ≤ p.1 ∧ p.1 < dim := by
  obtain ⟨i, hi, rfl⟩ := List.mem_map.1 hp
  obtain ⟨a, b⟩ := floor_bounds h0 h1 (show 0 < dim by omega)
  have hi' := List.mem_range.1 hi
  simp only
  split_ifs with h <;> omega

theorem stencil3_mem {dim : Fin 3 → ℕ} (hd : ∀ i, 4 ≤ dim i) {x : Vec} (hx : ∀ i, 0 ≤ x i ∧ x i < 1)
    {p : IVec × ℝ} (hp : p ∈ stencil3 dim x) : p.1 ∈ grid dim := by
  obtain ⟨a, ha, hp⟩ := List.mem_flatMap.1 hp
  obtain ⟨b, hb, hp⟩ := List.mem_flatMap.1 hp
  obtain ⟨c, hc, rfl⟩ := List.mem_map.1 hp
  rw [mem_grid]
  intro i
  fin_cases i
  · exact stencil_mem (hd 0) (hx 0).1 (hx 0).2 ha
  · exact stencil_mem (hd 1) (hx 1).1 (hx 1).2 hb
  · exact stencil_mem (hd 2) (hx 2).1 (hx 2).2 hc

theorem sum_flatMap {α β : Type} (l : List α) (g : α → List β) (f : β → ℂ) :
    ((l.flatMap g).map f).sum = (l.map fun a => ((g a).map f).sum).sum := by
  induction l with
  | nil => rfl
  | cons a l ih => simp [List.flatMap_cons, ih]

theorem sum_mul_left {α : Type} (l : List α) (c : ℂ) (f : α → ℂ) :
    (l.map fun a => c * f a).sum = c * (l.map f).sum := by
  rw [List.sum_map_mul_left]

/-- Sums over the positions near an atom factorise. -/
theorem stencil3_sum (dim : Fin 3 → ℕ) (x : Vec) (f0 f1 f2 : ℤ → ℂ) :
    ((stencil3 dim x).map fun p => (p.2 : ℂ) * (f0 (p.1 0) * f1 (p.1 1) * f2 (p.1 2))).sum =
      ((stencil (dim 0) (x 0)).map fun a => (a.2 : ℂ) * f0 a.1).sum *
      ((stencil (dim 1) (x 1)).map fun a => (a.2 : ℂ) * f1 a.1).sum *
      ((stencil (dim 2) (x 2)).map fun a => (a.2 : ℂ) * f2 a.1).sum := by
  unfold stencil3
  simp only [sum_flatMap, List.map_map, Function.comp_def]
  have e : ∀ a b c : ℤ × ℝ, (((a.2 * b.2 * c.2 : ℝ)) : ℂ) *
      (f0 ((![a.1, b.1, c.1] : IVec) 0) * f1 ((![a.1, b.1, c.1] : IVec) 1) *
        f2 ((![a.1, b.1, c.1] : IVec) 2)) =
      ((a.2 : ℂ) * f0 a.1) * (((b.2 : ℂ) * f1 b.1) * ((c.2 : ℂ) * f2 c.1)) := by
    intro a b c
    simp only [Matrix.cons_val_zero, Matrix.cons_val_one, Matrix.cons_val]
    push_cast; ring
  simp only [e, sum_mul_left, List.sum_map_mul_right]
  ring

/-- The Fourier transform of the weights of an atom along one axis. -/
noncomputable def W (dim : ℕ) (x : ℝ) (k : ℤ) : ℂ :=
  ((stencil dim x).map fun p => (p.2 : ℂ) * Complex.exp (-(2 * Real.pi * Complex.I * ((k * p.1 : ℂ) / dim)))).sum

theorem exp_wrap {dim : ℕ} (hd : dim ≠ 0) (k n m : ℤ) :
    Complex.exp (-(2 * Real.pi * Complex.I * ((k * ((n + m * dim : ℤ) : ℂ) : ℂ) / dim))) =
      Complex.exp (-(2 * Real.pi * Complex.I * ((k * n : ℂ) / dim))) := by
  have hd' : (dim : ℂ) ≠ 0 := by exact_mod_cast hd
  have e : -(2 * Real.pi * Complex.I * ((k * ((n + m * dim : ℤ) : ℂ) : ℂ) / dim)) =
      -(2 * Real.pi * Complex.I * ((k * n : ℂ) / dim)) + ((-(k * m) : ℤ) : ℂ) * (2 * Real.pi * Complex.I) := by
    push_cast; field_simp; ring
  rw [e, Complex.exp_add, Complex.exp_int_mul_two_pi_mul_I, mul_one]

theorem exp_wave_wrap {dim : ℕ} (hd : dim ≠ 0) (k n m : ℤ) :
    Complex.exp (-(2 * Real.pi * Complex.I * ((((k + m * dim : ℤ) : ℂ) * n : ℂ) / dim))) =
      Complex.exp (-(2 * Real.pi * Complex.I * ((k * n : ℂ) / dim))) := by
  rw [mul_comm ((k + m * dim : ℤ) : ℂ), exp_wrap hd, mul_comm (n : ℂ)]

theorem W_eq {dim : ℕ} (hd : dim ≠ 0) (x : ℝ) (k : ℤ) :
    W dim x k = ((List.range 5).map fun i : ℕ =>
      (basisSpline (x * dim - ((⌊x * dim⌋ + i - 4 : ℤ) : ℝ)) : ℂ) *
        Complex.exp (-(2 * Real.pi * Complex.I * ((k * ((⌊x * dim⌋ + i - 4 : ℤ) : ℂ) : ℂ) / dim)))).sum := by
  unfold W stencil
  rw [List.map_map]
  congr 1
  refine List.map_congr_left fun i _ => ?_
  simp only [Function.comp_apply, show (5 - 1 : ℤ) = 4 by norm_num]
  congr 1
  split_ifs with h
  · have := exp_wrap hd k (⌊x * dim⌋ + i - 4) 1
    rw [one_mul] at this
    exact this
  · rfl

/-- The weights add up to one. -/
theorem W_zero {dim : ℕ} (hd : dim ≠ 0) (x : ℝ) : W dim x 0 = 1 := by
  rw [W_eq hd]
  have h := spline_sum (Int.fract_nonneg (x * dim)) (Int.fract_lt_one (x * dim))
  have e : ∀ i : ℕ, x * dim - ((⌊x * dim⌋ + i - 4 : ℤ) : ℝ) = Int.fract (x * dim) + (4 - i) := by
    intro i; push_cast; rw [Int.fract]; ring
  simp only [e, Int.cast_zero, zero_mul, zero_div, mul_zero, neg_zero, Complex.exp_zero, mul_one]
  simp only [List.range_succ, List.range_zero, List.nil_append, List.map_append, List.map_cons,
    List.map_nil, List.sum_append, List.sum_cons, List.sum_nil]
  norm_num
  norm_cast
  refine Eq.trans ?_ h
  ring

/-- An atom not too far outside the primary cell. -/
def Inside (box : Box) (r : Vec) : Prop := ∀ i, -1 ≤ box.gen r i ∧ box.gen r i < 2

theorem shiftGen_range {x : Vec} (h : ∀ i, -1 ≤ x i ∧ x i < 2) (i : Fin 3) :
    (0 ≤ shiftGen x i ∧ shiftGen x i < 1) ∧ ∃ m : ℤ, shiftGen x i = x i + m := by
  obtain ⟨a, b⟩ := h i
  unfold shiftGen shift1
  split_ifs with h1 h2
  · exact ⟨⟨by linarith, by linarith⟩, -1, by push_cast; ring⟩
  · exact ⟨⟨by linarith, by linarith⟩, 1, by push_cast; ring⟩
  · exact ⟨⟨by linarith, by linarith⟩, 0, by push_cast; ring⟩

theorem scaled_ok {box : Box} {r : Vec} (h : Inside box r) : scaled box r = .ok (shiftGen (box.gen r)) := by
  unfold scaled
  rw [if_pos fun i => (shiftGen_range h i).1]

/-- What assigning charges does to any linear function of the grid. -/
theorem assignLoop_ok {box : Box} {dim : Fin 3 → ℕ} (hd : ∀ i, 4 ≤ dim i) : ∀ (atoms : List Atom)
    (rho : IVec → ℝ), (∀ a ∈ atoms, Inside box a.r) →
    ∃ rho', assignLoop box dim atoms rho = .ok rho' ∧
      ∀ f : IVec → ℂ, ∑ n ∈ grid dim, (rho' n : ℂ) * f n = ∑ n ∈ grid dim, (rho n : ℂ) * f n +
        (atoms.map fun a => (a.q : ℂ) *
          ((stencil3 dim (shiftGen (box.gen a.r))).map fun p => (p.2 : ℂ) * f p.1).sum).sum
  | [], rho, _ => ⟨rho, rfl, fun f => by simp⟩
  | a :: l, rho, h => by
    have ha := h a (by simp)
    obtain ⟨rho1, h1, h2⟩ := spread_ok dim a.q (stencil3 dim (shiftGen (box.gen a.r))) rho
      (fun p hp => stencil3_mem hd (fun i => (shiftGen_range ha i).1) hp)
    obtain ⟨rho2, h3, h4⟩ := assignLoop_ok hd l rho1 (fun a ha => h a (by simp [ha]))
    refine ⟨rho2, by rw [assignLoop, scaled_ok ha, ok_bind, h1, ok_bind, h3], fun f => ?_⟩
    rw [h4, h2, List.map_cons, List.sum_cons]
    ring

/-- Fourier transform of the charges on the grid. -/
noncomputable def density (box : Box) (dim : Fin 3 → ℕ) (atoms : List Atom) (k : IVec) : ℂ :=
  (atoms.map fun a => (a.q : ℂ) * (W (dim 0) (shiftGen (box.gen a.r) 0) (k 0) *
    W (dim 1) (shiftGen (box.gen a.r) 1) (k 1) * W (dim 2) (shiftGen (box.gen a.r) 2) (k 2))).sum

theorem exp_phase (dim : Fin 3 → ℕ) (k n : IVec) : Complex.exp (-phase dim k n) =
    Complex.exp (-(2 * Real.pi * Complex.I * ((k 0 * n 0 : ℂ) / dim 0))) *
    Complex.exp (-(2 * Real.pi * Complex.I * ((k 1 * n 1 : ℂ) / dim 1))) *
    Complex.exp (-(2 * Real.pi * Complex.I * ((k 2 * n 2 : ℂ) / dim 2))) := by
  rw [← Complex.exp_add, ← Complex.exp_add]
  congr 1
  unfold phase; ring

theorem stencil3_phase (dim : Fin 3 → ℕ) (x : Vec) (k : IVec) :
    ((stencil3 dim x).map fun p => (p.2 : ℂ) * Complex.exp (-phase dim k p.1)).sum =
      W (dim 0) (x 0) (k 0) * W (dim 1) (x 1) (k 1) * W (dim 2) (x 2) (k 2) := by
  simp only [exp_phase]
  exact stencil3_sum dim x (fun n => Complex.exp (-(2 * Real.pi * Complex.I * ((k 0 * n : ℂ) / dim 0))))
    (fun n => Complex.exp (-(2 * Real.pi * Complex.I * ((k 1 * n : ℂ) / dim 1))))
    (fun n => Complex.exp (-(2 * Real.pi * Complex.I * ((k 2 * n : ℂ) / dim 2))))

/-- `assignCharges` and the forward transform. -/
theorem assign_ok {box : Box} {dim : Fin 3 → ℕ} (hd : ∀ i, 4 ≤ dim i) {atoms : List Atom}
    (h : ∀ a ∈ atoms, Inside box a.r) : ∃ rho, assignLoop box dim atoms (fun _ => 0) = .ok rho ∧
      (∀ k, forward dim rho k = density box dim atoms k) ∧
      ∀ f : IVec → ℂ, ∑ n ∈ grid dim, (rho n : ℂ) * f n = (atoms.map fun a => (a.q : ℂ) *
          ((stencil3 dim (shiftGen (box.gen a.r))).map fun p => (p.2 : ℂ) * f p.1).sum).sum := by
  obtain ⟨rho, h1, h2⟩ := assignLoop_ok hd atoms (fun _ => 0) h
  have h3 : ∀ f : IVec → ℂ, ∑ n ∈ grid dim, (rho n : ℂ) * f n = (atoms.map fun a => (a.q : ℂ) *
          ((stencil3 dim (shiftGen (box.gen a.r))).map fun p => (p.2 : ℂ) * f p.1).sum).sum := by
    intro f; rw [h2]; simp
  refine ⟨rho, h1, fun k => ?_, h3⟩
  unfold forward
  rw [h3]
  unfold density
  simp only [stencil3_phase]

theorem interp_ok (dim : Fin 3 → ℕ) (f : Fin 3 → IVec → ℂ) : ∀ (l : List (IVec × ℝ)) (v : Vec),
    (∀ p ∈ l, p.1 ∈ grid dim) →
    interp dim f l v = .ok fun c => v c + (l.map fun p => p.2 * (f c p.1).re).sum
  | [], v, _ => by simp [interp]
  | (k, w) :: l, v, h => by
    rw [interp, if_pos (h (k, w) (by simp)), interp_ok dim f l _ (fun p hp => h p (by simp [hp]))]
    simp [add_assoc]

end Verif.Spme
