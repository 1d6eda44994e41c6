import Verif.Ewald.Model
import Verif.Pair.Force
import Mathlib.Analysis.SpecialFunctions.Gaussian.FourierTransform
import Mathlib.MeasureTheory.Integral.IntervalIntegral.FundThmCalculus
import Mathlib.Analysis.SpecialFunctions.Sqrt
import Mathlib.Analysis.Calculus.Deriv.Inv
import Mathlib.Analysis.Calculus.Deriv.Slope

/-! # Ewald summation: the r-space part, and how it fits to the k-space part -/

set_option autoImplicit false

namespace Verif.Ewald

open Verif.Boundary MeasureTheory Filter Topology

/-! ## The complementary error function -/

theorem gauss_integrable : Integrable fun t : ℝ => Real.exp (-t ^ 2) := by
  have := integrable_exp_neg_mul_sq (b := 1) one_pos
  simpa using this

theorem sqrt_pi_pos : 0 < Real.sqrt Real.pi := Real.sqrt_pos.2 Real.pi_pos

theorem erfc_zero : erfc 0 = 1 := by
  unfold erfc
  have h := integral_gaussian_Ioi 1
  simp only [neg_mul, one_mul, div_one] at h
  rw [h]
  have := sqrt_pi_pos.ne'
  field_simp

theorem erfc_eq (x : ℝ) :
    erfc x = 1 - 2 / Real.sqrt Real.pi * ∫ t in (0 : ℝ)..x, Real.exp (-t ^ 2) := by
  have h := intervalIntegral.integral_Ioi_sub_Ioi' (μ := volume) (a := 0) (b := x)
    (f := fun t : ℝ => Real.exp (-t ^ 2)) gauss_integrable.integrableOn gauss_integrable.integrableOn
  rw [← h, ← erfc_zero]
  unfold erfc
  ring

theorem hasDerivAt_erfc (x : ℝ) :
    HasDerivAt erfc (-(2 / Real.sqrt Real.pi * Real.exp (-x ^ 2))) x := by
  have hc : Continuous fun t : ℝ => Real.exp (-t ^ 2) := by fun_prop
  have h := intervalIntegral.integral_hasDerivAt_right (hc.intervalIntegrable 0 x)
    (hc.stronglyMeasurableAtFilter _ _) hc.continuousAt
  have h2 := (h.const_mul (2 / Real.sqrt Real.pi)).const_sub 1
  have e : erfc = fun x => 1 - 2 / Real.sqrt Real.pi * ∫ t in (0 : ℝ)..x, Real.exp (-t ^ 2) := by
    funext x; exact erfc_eq x
  rw [e]
  exact h2

theorem erfc_pos (x : ℝ) : 0 < erfc x := by
  unfold erfc
  have h : 0 < ∫ t in Set.Ioi x, Real.exp (-t ^ 2) := by
    rw [setIntegral_pos_iff_support_of_nonneg_ae (ae_of_all _ fun t => (Real.exp_pos _).le)
      gauss_integrable.integrableOn]
    have : (Function.support fun t : ℝ => Real.exp (-t ^ 2)) = Set.univ := by
      ext t; simp [(Real.exp_pos _).ne']
    rw [this, Set.univ_inter]
    simp
  have := sqrt_pi_pos
  positivity

/-! ## Force and energy -/

/-- The derived constants are those of the parameters. -/
structure Inter.OK (s : Inter) : Prop where
  eps : 0 < s.epsilon
  alp : 0 < s.alpha
  rCutSq : s.rCutSq = s.rCut * s.rCut
  ce : s.ce = 1 / (4 * Real.pi * s.epsilon)
  cf : s.cf = 2 * s.alpha / Real.sqrt Real.pi
  cg : s.cg = -(1 / 4) / (s.alpha * s.alpha)

theorem Inter.read_ok {e a r : ℝ} (he : 0 < e) (ha : 0 < a) : (Inter.read e a r).OK :=
  ⟨he, ha, rfl, rfl, rfl, rfl⟩

theorem hasDerivAt_rEnergy {s : Inter} (h : s.OK) (qq : ℝ) {rsq : ℝ} (h0 : 0 < rsq) :
    HasDerivAt (fun x => s.rEnergy x qq) (-(s.rForce rsq qq / 2)) rsq := by
  have hr := Real.sqrt_pos.2 h0
  have hsq := Real.hasDerivAt_sqrt h0.ne'
  have h1 : HasDerivAt (fun x => erfc (s.alpha * Real.sqrt x))
      (-(2 / Real.sqrt Real.pi * Real.exp (-(s.alpha * Real.sqrt rsq) ^ 2)) *
        (s.alpha * (1 / (2 * Real.sqrt rsq)))) rsq :=
    HasDerivAt.comp (h₂ := erfc) (h := fun x => s.alpha * Real.sqrt x) rsq
      (hasDerivAt_erfc (s.alpha * Real.sqrt rsq)) (hsq.const_mul s.alpha)
  have h2 := (h1.const_mul (s.ce * qq)).div hsq hr.ne'
  unfold Inter.rEnergy
  refine h2.congr_deriv ?_
  unfold Inter.rForce
  simp only
  rw [h.cf]
  have e : Real.exp (-(s.alpha * Real.sqrt rsq) * (s.alpha * Real.sqrt rsq)) =
      Real.exp (-(s.alpha * Real.sqrt rsq) ^ 2) := by ring_nf
  rw [e]
  have hs := sqrt_pi_pos.ne'
  have e2 : rsq = Real.sqrt rsq ^ 2 := (Real.sq_sqrt h0.le).symm
  generalize hy : Real.sqrt rsq = y at *
  subst e2
  field_simp
  ring

theorem conservative_rEnergy {s : Inter} (h : s.OK) (qq : ℝ) {rsq : ℝ} (h0 : 0 < rsq) :
    Pair.Conservative (fun x => s.rEnergy x qq) (fun x => s.rForce x qq) rsq :=
  Pair.conservative_of (hasDerivAt_rEnergy h qq h0)

/-! ## The smooth part -/

/-- The potential of a unit charge smeared by a Gaussian, at distance `r`: the part of the Coulomb
potential that is left for the sum over wavevectors. -/
noncomputable def smooth (s : Inter) (r : ℝ) : ℝ := (1 - erfc (s.alpha * r)) / (4 * Real.pi * s.epsilon * r)

/-- Density of a unit charge smeared by a Gaussian. -/
noncomputable def cloud (s : Inter) (r : ℝ) : ℝ :=
  (s.alpha / Real.sqrt Real.pi) ^ 3 * Real.exp (-(s.alpha ^ 2 * r ^ 2))

theorem split {s : Inter} (h : s.OK) (qq : ℝ) {r : ℝ} (h0 : 0 < r) :
    s.rEnergy (r * r) qq + qq * smooth s r = qq / (4 * Real.pi * s.epsilon * r) := by
  unfold Inter.rEnergy smooth
  simp only [Real.sqrt_mul_self h0.le, h.ce]
  have := h.eps.ne'
  have := Real.pi_pos.ne'
  field_simp
  ring

/-- First derivative of distance times the smooth potential. -/
theorem smooth_deriv (s : Inter) (r : ℝ) :
    HasDerivAt (fun x => (1 - erfc (s.alpha * x)) / (4 * Real.pi * s.epsilon))
      (2 * s.alpha / Real.sqrt Real.pi * Real.exp (-(s.alpha ^ 2 * r ^ 2)) /
        (4 * Real.pi * s.epsilon)) r := by
  have h1 : HasDerivAt (fun x : ℝ => s.alpha * x) s.alpha r := by
    simpa using (hasDerivAt_id r).const_mul s.alpha
  have h2 := (((hasDerivAt_erfc (s.alpha * r)).comp r h1).const_sub 1).div_const
    (4 * Real.pi * s.epsilon)
  refine h2.congr_deriv ?_
  rw [mul_pow]; ring

/-- Poisson's equation: the Laplacian `(1/r) d²(r φ)/dr²` of the smooth potential is minus the
density of the smeared charge divided by `ε`. -/
theorem smooth_poisson {s : Inter} (h : s.OK) {r : ℝ} (h0 : 0 < r) :
    ∃ d : ℝ → ℝ, (∀ x, 0 < x → HasDerivAt (fun x => x * smooth s x) (d x) x) ∧
      HasDerivAt d (-(r * cloud s r / s.epsilon)) r := by
  refine ⟨fun x => 2 * s.alpha / Real.sqrt Real.pi * Real.exp (-(s.alpha ^ 2 * x ^ 2)) /
        (4 * Real.pi * s.epsilon), fun x hx => ?_, ?_⟩
  · refine (smooth_deriv s x).congr_of_eventuallyEq ?_
    filter_upwards [lt_mem_nhds hx] with y hy
    unfold smooth
    have := h.eps.ne'
    have := Real.pi_pos.ne'
    field_simp
  · have h1 : HasDerivAt (fun x : ℝ => -(s.alpha ^ 2 * x ^ 2)) (-(s.alpha ^ 2 * (2 * r))) r := by
      refine ((hasDerivAt_pow 2 r).const_mul (s.alpha ^ 2)).neg.congr_deriv ?_
      push_cast; ring
    refine ((h1.exp.const_mul (2 * s.alpha / Real.sqrt Real.pi)).div_const
      (4 * Real.pi * s.epsilon)).congr_deriv ?_
    unfold cloud
    have h2 := h.eps.ne'
    have h3 := Real.pi_pos.ne'
    have h4 := sqrt_pi_pos.ne'
    have e : Real.pi = Real.sqrt Real.pi ^ 2 := (Real.sq_sqrt Real.pi_pos.le).symm
    generalize hy : Real.sqrt Real.pi = y at *
    rw [e]
    field_simp
    ring

/-- Limit of the smooth potential at the position of the charge itself. -/
theorem smooth_zero {s : Inter} (h : s.OK) :
    Tendsto (smooth s) (𝓝[>] 0)
      (𝓝 (2 * s.alpha / Real.sqrt Real.pi / (4 * Real.pi * s.epsilon))) := by
  have h1 := smooth_deriv s 0
  rw [hasDerivAt_iff_tendsto_slope] at h1
  have h2 := h1.mono_left (nhdsWithin_mono 0 (fun x (hx : (0 : ℝ) < x) => hx.ne'))
  simp only [ne_eq, OfNat.ofNat_ne_zero, not_false_eq_true, zero_pow, mul_zero, neg_zero,
    Real.exp_zero, mul_one] at h2
  refine h2.congr' ?_
  filter_upwards [self_mem_nhdsWithin] with x hx
  have hx' : x ≠ 0 := (show (0 : ℝ) < x from hx).ne'
  rw [slope_def_field, mul_zero, erfc_zero]
  unfold smooth
  have := h.eps.ne'
  have := Real.pi_pos.ne'
  field_simp
  ring

/-! ## The k-space potential -/

/-- The Fourier transform of the density of the smeared charge, divided by `ε k²`, is the k-space
potential. -/
theorem kPot_fourier {s : Inter} (h : s.OK) (k : Vec) (hk : normSq k ≠ 0) :
    (∫ r : Vec, (cloud s (Real.sqrt (normSq r)) : ℂ) *
      Complex.exp (-((dot k r : ℝ) * Complex.I))) / (s.epsilon * normSq k : ℝ) =
      (s.kPot (normSq k) : ℝ) := by
  have ha := h.alp
  have h1 := GaussianFourier.integral_cexp_neg_mul_sum_add (ι := Fin 3) (b := (s.alpha ^ 2 : ℝ))
    (by rw [Complex.ofReal_re]; positivity) (fun j => -((k j : ℝ) * Complex.I))
  have e : ∀ r : Vec, (cloud s (Real.sqrt (normSq r)) : ℂ) *
      Complex.exp (-((dot k r : ℝ) * Complex.I)) = ((s.alpha / Real.sqrt Real.pi) ^ 3 : ℝ) *
      Complex.exp (-((s.alpha ^ 2 : ℝ) : ℂ) * ∑ i, (r i : ℂ) ^ 2 + ∑ i, -((k i : ℝ) * Complex.I) * r i) := by
    intro r
    have hn : 0 ≤ normSq r := by unfold normSq; positivity
    unfold cloud
    rw [Real.sq_sqrt hn, Complex.ofReal_mul, mul_assoc, Complex.ofReal_exp, ← Complex.exp_add]
    congr 2
    simp only [normSq, dot, Fin.sum_univ_three]
    push_cast; ring
  simp only [e]
  rw [integral_const_mul, h1]
  have e2 : (∑ i, (-((k i : ℝ) * Complex.I)) ^ 2) / (4 * ((s.alpha ^ 2 : ℝ) : ℂ)) =
      ((s.cg * normSq k : ℝ) : ℂ) := by
    rw [h.cg]
    simp only [normSq, Fin.sum_univ_three, neg_sq, mul_pow, Complex.I_sq]
    push_cast
    have : (s.alpha : ℂ) ≠ 0 := by exact_mod_cast ha.ne'
    field_simp
    ring
  rw [e2]
  have e3 : ((Real.pi : ℂ) / ((s.alpha ^ 2 : ℝ) : ℂ)) ^ ((Fintype.card (Fin 3) : ℂ) / 2) =
      (((Real.sqrt Real.pi / s.alpha) ^ 3 : ℝ) : ℂ) := by
    have hp := Real.pi_pos
    rw [← Complex.ofReal_div]
    have hx : 0 ≤ Real.pi / s.alpha ^ 2 := by positivity
    have : ((Fintype.card (Fin 3) : ℂ) / 2) = ((3 / 2 : ℝ) : ℂ) := by simp
    rw [this, ← Complex.ofReal_cpow hx]
    congr 1
    have e4 : Real.pi / s.alpha ^ 2 = (Real.sqrt Real.pi / s.alpha) ^ (2 : ℝ) := by
      rw [Real.rpow_two, div_pow, Real.sq_sqrt hp.le]
    rw [e4, ← Real.rpow_mul (by positivity)]
    norm_num
  rw [e3]
  have hs := sqrt_pi_pos.ne'
  have ha' := ha.ne'
  have he := h.eps.ne'
  unfold Inter.kPot
  rw [← mul_assoc, ← Complex.ofReal_mul, ← Complex.ofReal_exp, ← Complex.ofReal_mul,
    ← Complex.ofReal_div]
  congr 1
  field_simp

end Verif.Ewald
