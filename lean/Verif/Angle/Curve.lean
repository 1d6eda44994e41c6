import Verif.Angle.Model
import Mathlib.Analysis.SpecialFunctions.Sqrt
import Mathlib.Analysis.Calculus.Deriv.Inv

/-!
# Derivative of the cosine of the angle between two moving vectors
-/

set_option autoImplicit false

namespace Verif.Angle

open Verif.Boundary hiding dot
open Verif.Pair Verif.Bond

/-- The vector `u t` depends on time, with velocity `v` at time zero. -/
def Moves (u : ℝ → Vec) (v : Vec) : Prop := ∀ i, HasDerivAt (fun t => u t i) (v i) 0

theorem moves_line (x v : Vec) : Moves (fun t i => x i + t * v i) v := by
  intro i
  have := ((hasDerivAt_id (0 : ℝ)).mul_const (v i)).const_add (x i)
  simpa using this

theorem normSq_dot (x : Vec) : normSq x = dot x x := by unfold normSq dot; ring

theorem normSq_nonneg (x : Vec) : 0 ≤ normSq x := by unfold normSq; positivity

theorem vabs_sq (x : Vec) : vabs x * vabs x = normSq x := Real.mul_self_sqrt (normSq_nonneg x)

theorem vabs_pos {x : Vec} (h : 0 < normSq x) : 0 < vabs x := Real.sqrt_pos.2 h

theorem Moves.dot {u w : ℝ → Vec} {u' w' : Vec} (hu : Moves u u') (hw : Moves w w') :
    HasDerivAt (fun t => Pair.dot (u t) (w t)) (Pair.dot u' (w 0) + Pair.dot (u 0) w') 0 := by
  have := (((hu 0).mul (hw 0)).add ((hu 1).mul (hw 1))).add ((hu 2).mul (hw 2))
  unfold Pair.dot
  refine this.congr_deriv ?_
  ring

theorem Moves.cross {u w : ℝ → Vec} {u' w' : Vec} (hu : Moves u u') (hw : Moves w w') :
    Moves (fun t => cross (u t) (w t)) (fun i => cross u' (w 0) i + cross (u 0) w' i) := by
  have key : ∀ a b : Fin 3, HasDerivAt (fun t => u t a * w t b - u t b * w t a)
      (u' a * w 0 b - u' b * w 0 a + (u 0 a * w' b - u 0 b * w' a)) 0 := by
    intro a b
    refine (((hu a).mul (hw b)).sub ((hu b).mul (hw a))).congr_deriv ?_
    ring
  intro i
  fin_cases i
  · simpa [Angle.cross] using key 1 2
  · simpa [Angle.cross] using key 2 0
  · simpa [Angle.cross] using key 0 1

/-- Cauchy-Schwarz. -/
theorem dot_sq_le (x y : Vec) : dot x y * dot x y ≤ normSq x * normSq y := by
  unfold dot normSq
  nlinarith [sq_nonneg (x 0 * y 1 - x 1 * y 0), sq_nonneg (x 1 * y 2 - x 2 * y 1),
    sq_nonneg (x 2 * y 0 - x 0 * y 2)]

theorem sqrt_mul_vabs (x y : Vec) : Real.sqrt (normSq x * normSq y) = vabs x * vabs y :=
  Real.sqrt_mul (normSq_nonneg x) _

theorem cosOf_eq (x y : Vec) : cosOf x y = dot x y / (vabs x * vabs y) := by
  unfold cosOf; rw [sqrt_mul_vabs]

/-- The cosine is between `-1` and `1`. -/
theorem cosOf_bounds (x y : Vec) : -1 ≤ cosOf x y ∧ cosOf x y ≤ 1 := by
  have h := dot_sq_le x y
  have hs := Real.sqrt_nonneg (normSq x * normSq y)
  have hm := mul_nonneg (normSq_nonneg x) (normSq_nonneg y)
  have ha : |dot x y| ≤ Real.sqrt (normSq x * normSq y) := by
    apply Real.abs_le_sqrt
    rw [sq]; exact h
  have := abs_le.1 ha
  unfold cosOf
  rcases eq_or_lt_of_le hs with h0 | h0
  · rw [← h0]; norm_num
  · rw [div_le_one h0, le_div_iff₀ h0]
    constructor <;> linarith [this.1, this.2]

theorem dot_div (x y : Vec) (a b : ℝ) : dot (fun i => x i / a) (fun i => y i / b) = dot x y / (a * b) := by
  unfold dot
  rw [div_mul_div_comm, div_mul_div_comm, div_mul_div_comm, ← add_div, ← add_div]

theorem bendForce_cos (x y : Vec) : (bendForce x y).cosTheta = cosOf x y := by
  simp only [bendForce]
  rw [dot_div, cosOf_eq]

/-- Rate of change of the cosine. -/
theorem Moves.cosOf {u w : ℝ → Vec} {u' w' : Vec} (hu : Moves u u') (hw : Moves w w')
    (h1 : 0 < normSq (u 0)) (h2 : 0 < normSq (w 0)) :
    HasDerivAt (fun t => Angle.cosOf (u t) (w t))
      (Pair.dot (bendForce (u 0) (w 0)).d1 u' + Pair.dot (bendForce (u 0) (w 0)).d2 w') 0 := by
  have hpos := mul_pos h1 h2
  have huu : HasDerivAt (fun t => normSq (u t)) (2 * Pair.dot (u 0) u') 0 := by
    have := hu.dot hu
    simp only [normSq_dot]
    refine this.congr_deriv ?_
    unfold Pair.dot; ring
  have hww : HasDerivAt (fun t => normSq (w t)) (2 * Pair.dot (w 0) w') 0 := by
    have := hw.dot hw
    simp only [normSq_dot]
    refine this.congr_deriv ?_
    unfold Pair.dot; ring
  have hsq := (huu.mul hww).sqrt (by exact hpos.ne')
  have hd := (hu.dot hw).div hsq (by exact (Real.sqrt_pos.2 hpos).ne')
  refine HasDerivAt.congr_deriv (f := fun t => Angle.cosOf (u t) (w t)) hd ?_
  simp only [Pi.mul_apply]
  rw [sqrt_mul_vabs]
  have p1 := vabs_pos h1
  have p2 := vabs_pos h2
  have e1 := vabs_sq (u 0)
  have e2 := vabs_sq (w 0)
  simp only [bendForce, dot_div]
  rw [← e1, ← e2]
  generalize vabs (u 0) = a at *
  generalize vabs (w 0) = b at *
  have hdd : ∀ (x y z : Vec) (p q r : ℝ), Pair.dot (fun i => (x i / p - y i / q * r) / q) z
      = (Pair.dot x z / p - Pair.dot y z / q * r) / q := by
    intro x y z p q r; unfold Pair.dot; ring
  rw [hdd, hdd]
  have hc : Pair.dot u' (w 0) = Pair.dot (w 0) u' := by unfold Pair.dot; ring
  rw [hc]
  generalize Pair.dot (w 0) u' = A
  generalize Pair.dot (u 0) w' = B
  generalize Pair.dot (u 0) u' = C
  generalize Pair.dot (w 0) w' = D
  generalize Pair.dot (u 0) (w 0) = E
  field_simp
  ring

end Verif.Angle
