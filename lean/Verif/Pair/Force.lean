import Verif.Boundary.Ortho
import Mathlib.Analysis.Calculus.Deriv.Basic
import Mathlib.Analysis.Calculus.Deriv.Comp
import Mathlib.Analysis.Calculus.Deriv.Mul
import Mathlib.Analysis.Calculus.Deriv.Pow
import Mathlib.Analysis.Calculus.Deriv.Add

/-!
# Specification: a force is minus the gradient of an energy

An interaction is given by functions `E` (energy) and `F` (force divided by distance) of the
square of the distance.
-/

set_option autoImplicit false

namespace Verif.Pair

open Verif.Boundary

/-- Scalar product. -/
def dot (x y : Vec) : ℝ := x 0 * y 0 + x 1 * y 1 + x 2 * y 2

/-- At square distance `s`, `F` times the distance is minus the derivative of the energy with
respect to distance, and `F` times the separation vector is minus the gradient: the derivative of
the energy when the separation vector `x` changes at velocity `v` is minus the scalar product of
`v` and `F x`. -/
structure Conservative (E F : ℝ → ℝ) (s : ℝ) : Prop where
  radial : ∀ r, r * r = s → HasDerivAt (fun r => E (r * r)) (-(F (r * r) * r)) r
  vector : ∀ x v : Vec, normSq x = s →
    HasDerivAt (fun t : ℝ => E (normSq fun i => x i + t * v i)) (-(dot (fun i => F (normSq x) * x i) v)) 0

theorem hasDerivAt_line (x v : Vec) :
    HasDerivAt (fun t : ℝ => normSq fun i => x i + t * v i) (2 * dot x v) 0 := by
  have h : ∀ i, HasDerivAt (fun t : ℝ => (x i + t * v i) ^ 2) (2 * (x i * v i)) 0 := by
    intro i
    have h1 : HasDerivAt (fun t : ℝ => x i + t * v i) (v i) 0 := by
      have := ((hasDerivAt_id (0 : ℝ)).mul_const (v i)).const_add (x i)
      simpa using this
    refine (h1.pow 2).congr_deriv ?_
    simp only [zero_mul, add_zero]
    push_cast; ring
  have := ((h 0).add (h 1)).add (h 2)
  unfold normSq dot
  refine this.congr_deriv ?_
  ring

/-- It suffices to differentiate with respect to the square of the distance. -/
theorem conservative_of {E F : ℝ → ℝ} {s : ℝ} (h : HasDerivAt E (-(F s / 2)) s) :
    Conservative E F s := by
  constructor
  · rintro r rfl
    have h1 : HasDerivAt (fun r : ℝ => r * r) (r + r) r := by
      refine ((hasDerivAt_id r).mul (hasDerivAt_id r)).congr_deriv ?_
      simp
    refine (HasDerivAt.comp (h := fun r : ℝ => r * r) r h h1).congr_deriv ?_
    ring
  · rintro x v rfl
    have h1 := hasDerivAt_line x v
    have e : (normSq fun i => x i + 0 * v i) = normSq x := by
      congr 1; funext i; ring
    have h2 : HasDerivAt E (-(F (normSq x) / 2)) (normSq fun i => x i + 0 * v i) := by rw [e]; exact h
    refine (HasDerivAt.comp (h := fun t : ℝ => normSq fun i => x i + t * v i) 0 h2 h1).congr_deriv ?_
    unfold dot; ring

end Verif.Pair
