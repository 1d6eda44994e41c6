import Verif.Spme.Model

/-!
# The basis spline
-/

set_option autoImplicit false

namespace Verif.Spme

open Verif.Boundary Verif.Cpp Verif.Cpp.Out Verif.Ewald

/-- Cardinal B-splines by recursion: `cardinal n` has order `n + 2` and support `[0, n + 2]`. -/
noncomputable def cardinal : ℕ → ℝ → ℝ
  | 0, x => max 0 (1 - |x - 1|)
  | n + 1, x => (x * cardinal n x + ((n : ℝ) + 3 - x) * cardinal n (x - 1)) / (n + 2)

theorem hat_low {x : ℝ} (h : x ≤ 0) : cardinal 0 x = 0 := by
  unfold cardinal; rw [abs_of_nonpos (by linarith), max_eq_left (by linarith)]

theorem hat_up {x : ℝ} (h : 0 ≤ x) (h' : x ≤ 1) : cardinal 0 x = x := by
  unfold cardinal; rw [abs_of_nonpos (by linarith), max_eq_right (by linarith)]; ring

theorem hat_down {x : ℝ} (h : 1 ≤ x) (h' : x ≤ 2) : cardinal 0 x = 2 - x := by
  unfold cardinal; rw [abs_of_nonneg (by linarith), max_eq_right (by linarith)]; ring

theorem hat_high {x : ℝ} (h : 2 ≤ x) : cardinal 0 x = 0 := by
  unfold cardinal; rw [abs_of_nonneg (by linarith), max_eq_left (by linarith)]

theorem cardinal_three (x : ℝ) : cardinal 3 x =
    (x * (x * (x * cardinal 0 x + (3 - x) * cardinal 0 (x - 1)) / 2 +
        (4 - x) * (((x - 1) * cardinal 0 (x - 1) + (4 - x) * cardinal 0 (x - 2)) / 2)) / 3 +
      (5 - x) * (((x - 1) * (((x - 1) * cardinal 0 (x - 1) + (4 - x) * cardinal 0 (x - 2)) / 2) +
        (5 - x) * (((x - 2) * cardinal 0 (x - 2) + (5 - x) * cardinal 0 (x - 3)) / 2)) / 3)) / 4 := by
  have e2 : x - 1 - 1 = x - 2 := by ring
  have e3 : x - 2 - 1 = x - 3 := by ring
  simp only [cardinal.eq_2, e2, e3]
  push_cast
  ring

/-- Which formula applies. -/
theorem spline_cases (x : ℝ) :
    (x ≤ 0 ∧ basisSpline x = 0) ∨
    ((0 ≤ x ∧ x ≤ 1) ∧ basisSpline x = x ^ 4 / 24) ∨
    ((1 ≤ x ∧ x ≤ 2) ∧ basisSpline x = (-5 + 20 * x - 30 * x ^ 2 + 20 * x ^ 3 - 4 * x ^ 4) / 24) ∨
    ((2 ≤ x ∧ x ≤ 3) ∧ basisSpline x = (155 - 300 * x + 210 * x ^ 2 - 60 * x ^ 3 + 6 * x ^ 4) / 24) ∨
    ((3 ≤ x ∧ x ≤ 4) ∧ basisSpline x = (-655 + 780 * x - 330 * x ^ 2 + 60 * x ^ 3 - 4 * x ^ 4) / 24) ∨
    ((4 ≤ x ∧ x ≤ 5) ∧ basisSpline x = (625 - 500 * x + 150 * x ^ 2 - 20 * x ^ 3 + x ^ 4) / 24) ∨
    (5 ≤ x ∧ basisSpline x = 0) := by
  unfold basisSpline
  split_ifs with h1 h2 h3 h4 h5
  · exact Or.inr (Or.inl ⟨⟨h1.1.le, h1.2.le⟩, by ring⟩)
  · exact Or.inr (Or.inr (Or.inl ⟨⟨h2.1, h2.2.le⟩, by ring⟩))
  · exact Or.inr (Or.inr (Or.inr (Or.inl ⟨⟨h3.1, h3.2.le⟩, by ring⟩)))
  · exact Or.inr (Or.inr (Or.inr (Or.inr (Or.inl ⟨⟨h4.1, h4.2.le⟩, by ring⟩))))
  · exact Or.inr (Or.inr (Or.inr (Or.inr (Or.inr (Or.inl ⟨⟨h5.1, h5.2.le⟩, by ring⟩)))))
  · rcases le_or_gt x 0 with h | h
    · exact Or.inl ⟨h, rfl⟩
    · refine Or.inr (Or.inr (Or.inr (Or.inr (Or.inr (Or.inr ⟨?_, rfl⟩)))))
      by_contra h6
      rcases lt_or_ge x 1 with a | a
      · exact h1 ⟨h, a⟩
      rcases lt_or_ge x 2 with b | b
      · exact h2 ⟨a, b⟩
      rcases lt_or_ge x 3 with c | c
      · exact h3 ⟨b, c⟩
      rcases lt_or_ge x 4 with d | d
      · exact h4 ⟨c, d⟩
      · exact h5 ⟨d, by linarith⟩

/-- The spline of the code is the B-spline of order 5. -/
theorem basisSpline_eq (x : ℝ) : basisSpline x = cardinal 3 x := by
  rw [cardinal_three]
  rcases spline_cases x with ⟨h, e⟩ | ⟨⟨h, h'⟩, e⟩ | ⟨⟨h, h'⟩, e⟩ | ⟨⟨h, h'⟩, e⟩ | ⟨⟨h, h'⟩, e⟩ |
    ⟨⟨h, h'⟩, e⟩ | ⟨h, e⟩ <;> rw [e]
  · rw [hat_low h, hat_low (by linarith), hat_low (by linarith), hat_low (by linarith)]; ring
  · rw [hat_up h h', hat_low (by linarith), hat_low (by linarith), hat_low (by linarith)]; ring
  · rw [hat_down h h', hat_up (by linarith) (by linarith), hat_low (by linarith), hat_low (by linarith)]
    ring
  · rw [hat_high h, hat_down (by linarith) (by linarith), hat_up (by linarith) (by linarith),
      hat_low (by linarith)]
    ring
  · rw [hat_high (by linarith), hat_high (by linarith), hat_down (by linarith) (by linarith),
      hat_up (by linarith) (by linarith)]
    ring
  · rw [hat_high (by linarith), hat_high (by linarith), hat_high (by linarith),
      hat_down (by linarith) (by linarith)]
    ring
  · rw [hat_high (by linarith), hat_high (by linarith), hat_high (by linarith), hat_high (by linarith)]
    ring

theorem hat_nonneg (x : ℝ) : 0 ≤ cardinal 0 x := by unfold cardinal; exact le_max_left _ _

theorem cardinal_support (n : ℕ) (x : ℝ) : (x ≤ 0 → cardinal n x = 0) ∧ ((n : ℝ) + 2 ≤ x → cardinal n x = 0) := by
  induction n generalizing x with
  | zero => exact ⟨hat_low, fun h => hat_high (by simpa using h)⟩
  | succ n ih =>
    unfold cardinal
    constructor
    · intro h
      rw [(ih x).1 h, (ih (x - 1)).1 (by linarith)]; simp
    · intro h
      push_cast at h
      rw [(ih x).2 (by linarith), (ih (x - 1)).2 (by linarith)]; simp

theorem cardinal_nonneg (n : ℕ) (x : ℝ) : 0 ≤ cardinal n x := by
  induction n generalizing x with
  | zero => exact hat_nonneg x
  | succ n ih =>
    rcases le_or_gt x 0 with h | h
    · rw [(cardinal_support (n + 1) x).1 h]
    rcases le_or_gt ((n : ℝ) + 3) x with h' | h'
    · rw [(cardinal_support (n + 1) x).2 (by push_cast; linarith)]
    unfold cardinal
    have h1 := mul_nonneg h.le (ih x)
    have h2 := mul_nonneg (sub_nonneg.2 h'.le) (ih (x - 1))
    exact div_nonneg (add_nonneg h1 h2) (by positivity)

theorem basisSpline_nonneg (x : ℝ) : 0 ≤ basisSpline x := by
  rw [basisSpline_eq]; exact cardinal_nonneg 3 x

/-- Values at points of the unit interval and its translates. -/
theorem spline_unit {f : ℝ} (h : 0 ≤ f) (h' : f < 1) :
    basisSpline f = f ^ 4 / 24 ∧
    basisSpline (f + 1) = (1 + 4 * f + 6 * f ^ 2 + 4 * f ^ 3 - 4 * f ^ 4) / 24 ∧
    basisSpline (f + 2) = (11 + 12 * f - 6 * f ^ 2 - 12 * f ^ 3 + 6 * f ^ 4) / 24 ∧
    basisSpline (f + 3) = (11 - 12 * f - 6 * f ^ 2 + 12 * f ^ 3 - 4 * f ^ 4) / 24 ∧
    basisSpline (f + 4) = (1 - 4 * f + 6 * f ^ 2 - 4 * f ^ 3 + f ^ 4) / 24 := by
  unfold basisSpline
  refine ⟨?_, ?_, ?_, ?_, ?_⟩
  · rcases eq_or_lt_of_le h with h0 | h0
    · subst h0; norm_num
    · rw [if_pos ⟨h0, h'⟩]; ring
  · rw [if_neg (by intro h; linarith [h.2]), if_pos ⟨by linarith, by linarith⟩]; ring
  · rw [if_neg (by intro h; linarith [h.2]), if_neg (by intro h; linarith [h.2]),
      if_pos ⟨by linarith, by linarith⟩]; ring
  · rw [if_neg (by intro h; linarith [h.2]), if_neg (by intro h; linarith [h.2]),
      if_neg (by intro h; linarith [h.2]), if_pos ⟨by linarith, by linarith⟩]; ring
  · rw [if_neg (by intro h; linarith [h.2]), if_neg (by intro h; linarith [h.2]),
      if_neg (by intro h; linarith [h.2]), if_neg (by intro h; linarith [h.2]),
      if_pos ⟨by linarith, by linarith⟩]; ring

theorem spline_int : basisSpline 0 = 0 ∧ basisSpline 1 = 1 / 24 ∧ basisSpline 2 = 11 / 24 ∧
    basisSpline 3 = 11 / 24 ∧ basisSpline 4 = 1 / 24 := by
  have := spline_unit (le_refl (0 : ℝ)) one_pos
  norm_num at this ⊢
  exact this

/-- Partition of unity. -/
theorem spline_sum {f : ℝ} (h : 0 ≤ f) (h' : f < 1) : basisSpline f + basisSpline (f + 1) +
    basisSpline (f + 2) + basisSpline (f + 3) + basisSpline (f + 4) = 1 := by
  obtain ⟨e0, e1, e2, e3, e4⟩ := spline_unit h h'
  rw [e0, e1, e2, e3, e4]; ring

end Verif.Spme
