/-
First and second moments of the velocities in Langevin dynamics without forces.
-/
import Verif.Thermo.Langevin
import Mathlib.Probability.Independence.Integration
import Mathlib.Probability.HasLaw
import Mathlib.Analysis.SpecialFunctions.Integrals.Basic

set_option autoImplicit false
set_option linter.unusedSectionVars false

namespace Verif.Thermo

open Verif.Boundary Verif.Integrate MeasureTheory ProbabilityTheory

variable {ι : Type} [DecidableEq ι] {Ω : Type} [MeasurableSpace Ω]

/-- Random numbers that are independent and uniformly distributed between 0 and 1. -/
structure Uniforms (μ : Measure Ω) (U : Ω → ℕ → ι → Vec) : Prop where
  law : ∀ k i j, HasLaw (fun ω => U ω k i j) (volume.restrict (Set.Icc (0 : ℝ) 1)) μ
  indep : iIndepFun (fun (x : ℕ × ι × Fin 3) ω => U ω x.1 x.2.1 x.2.2) μ

instance unit_prob : IsProbabilityMeasure (volume.restrict (Set.Icc (0 : ℝ) 1)) :=
  ⟨by simp⟩

variable {μ : Measure Ω} {U : Ω → ℕ → ι → Vec}

theorem Uniforms.mean (hU : Uniforms μ U) (k : ℕ) (i : ι) (j : Fin 3) :
    ∫ ω, (U ω k i j - 1 / 2) ∂μ = 0 := by
  have h := (hU.law k i j).integral_comp (f := fun x : ℝ => x - 1 / 2) (by fun_prop)
  rw [show (∫ ω, (U ω k i j - 1 / 2) ∂μ) =
    ∫ ω, ((fun x : ℝ => x - 1 / 2) ∘ fun ω => U ω k i j) ω ∂μ from rfl, h,
    integral_Icc_eq_integral_Ioc, ← intervalIntegral.integral_of_le zero_le_one,
    intervalIntegral.integral_sub (by simp) (by simp)]
  simp

theorem Uniforms.square (hU : Uniforms μ U) (k : ℕ) (i : ι) (j : Fin 3) :
    ∫ ω, (U ω k i j - 1 / 2) * (U ω k i j - 1 / 2) ∂μ = 1 / 12 := by
  have h := (hU.law k i j).integral_comp (f := fun x : ℝ => (x - 1 / 2) * (x - 1 / 2)) (by fun_prop)
  rw [show (∫ ω, (U ω k i j - 1 / 2) * (U ω k i j - 1 / 2) ∂μ) =
    ∫ ω, ((fun x : ℝ => (x - 1 / 2) * (x - 1 / 2)) ∘ fun ω => U ω k i j) ω ∂μ from rfl, h,
    integral_Icc_eq_integral_Ioc, ← intervalIntegral.integral_of_le zero_le_one]
  have e : (fun x : ℝ => (x - 1 / 2) * (x - 1 / 2)) = fun x : ℝ => (x - 1 / 2) ^ 2 := by
    funext x; ring
  rw [e, intervalIntegral.integral_comp_sub_right (fun x : ℝ => x ^ 2), integral_pow]
  norm_num

theorem Uniforms.bounded (hU : Uniforms μ U) (k : ℕ) (i : ι) (j : Fin 3) :
    ∀ᵐ ω ∂μ, U ω k i j ∈ Set.Icc (0 : ℝ) 1 := by
  have h := (hU.law k i j).ae_iff (p := fun x => x ∈ Set.Icc (0 : ℝ) 1)
    (measurableSet_Icc.mem)
  exact h.2 (ae_restrict_mem measurableSet_Icc)

theorem Uniforms.memLp [IsProbabilityMeasure μ] (hU : Uniforms μ U) (k : ℕ) (i : ι) (j : Fin 3) :
    MemLp (fun ω => U ω k i j - 1 / 2) 2 μ :=
  (memLp_of_bounded (hU.bounded k i j) (hU.law k i j).aemeasurable.aestronglyMeasurable 2).sub
    (memLp_const _)

/-- The random numbers are uncorrelated. -/
theorem Uniforms.cov (hU : Uniforms μ U) (k l : ℕ) (i i' : ι) (j j' : Fin 3) :
    ∫ ω, (U ω k i j - 1 / 2) * (U ω l i' j' - 1 / 2) ∂μ =
      if (k, i, j) = (l, i', j') then 1 / 12 else 0 := by
  split
  case isTrue h =>
    simp only [Prod.mk.injEq] at h
    obtain ⟨rfl, rfl, rfl⟩ := h
    exact hU.square k i j
  case isFalse h =>
    have hi : IndepFun (fun ω => U ω k i j - 1 / 2) (fun ω => U ω l i' j' - 1 / 2) μ :=
      (hU.indep.indepFun h).comp (φ := fun x : ℝ => x - 1 / 2) (ψ := fun x : ℝ => x - 1 / 2)
        (by fun_prop) (by fun_prop)
    rw [hi.integral_fun_mul_eq_mul_integral
      ((hU.law k i j).aemeasurable.sub_const _).aestronglyMeasurable
      ((hU.law l i' j').aemeasurable.sub_const _).aestronglyMeasurable, hU.mean, zero_mul]

theorem integral_lin4 {f₁ f₂ f₃ f₄ : Ω → ℝ} (h₁ : Integrable f₁ μ) (h₂ : Integrable f₂ μ)
    (h₃ : Integrable f₃ μ) (h₄ : Integrable f₄ μ) (a b c d : ℝ) :
    ∫ ω, ((a * f₁ ω + b * f₂ ω) + (c * f₃ ω + d * f₄ ω)) ∂μ =
      (a * ∫ ω, f₁ ω ∂μ + b * ∫ ω, f₂ ω ∂μ) + (c * ∫ ω, f₃ ω ∂μ + d * ∫ ω, f₄ ω ∂μ) := by
  have e := integral_add (μ := μ) (f := fun ω => a * f₁ ω + b * f₂ ω) (g := fun ω => c * f₃ ω + d * f₄ ω)
    ((h₁.const_mul a).add (h₂.const_mul b)) ((h₃.const_mul c).add (h₄.const_mul d))
  rw [e, integral_add (h₁.const_mul a) (h₂.const_mul b), integral_add (h₃.const_mul c) (h₄.const_mul d),
    integral_const_mul, integral_const_mul, integral_const_mul, integral_const_mul]

theorem integral_lin2 {f₁ f₂ : Ω → ℝ} (h₁ : Integrable f₁ μ) (h₂ : Integrable f₂ μ) (a b : ℝ) :
    ∫ ω, (a * f₁ ω + b * f₂ ω) ∂μ = a * ∫ ω, f₁ ω ∂μ + b * ∫ ω, f₂ ω ∂μ := by
  rw [integral_add (h₁.const_mul a) (h₂.const_mul b), integral_const_mul, integral_const_mul]

variable [IsProbabilityMeasure μ] (hU : Uniforms μ U) (e : ℝ) (c : ι → ℝ) (v : ι → Vec)
include hU

theorem half_memLp (n : ℕ) (i : ι) (j : Fin 3) : MemLp (fun ω => half e c (U ω) v n i j) 2 μ := by
  induction n with
  | zero => exact memLp_const _
  | succ n ih => exact (ih.const_mul e).add ((hU.memLp n i j).const_mul (c i))

theorem full_memLp (n : ℕ) (i : ι) (j : Fin 3) : MemLp (fun ω => full e c (U ω) v n i j) 2 μ := by
  cases n with
  | zero => exact memLp_const _
  | succ n => exact ((half_memLp hU e c v n i j).const_mul _).add ((hU.memLp n i j).const_mul _)

theorem half_mean (n : ℕ) (i : ι) (j : Fin 3) :
    ∫ ω, half e c (U ω) v n i j ∂μ = e ^ n * v i j := by
  induction n with
  | zero => simp [half]
  | succ n ih =>
    simp only [half]
    rw [integral_add (((half_memLp hU e c v n i j).integrable one_le_two).const_mul e)
      (((hU.memLp n i j).integrable one_le_two).const_mul _), integral_const_mul, integral_const_mul,
      ih, hU.mean]
    ring

theorem full_mean (n : ℕ) (i : ι) (j : Fin 3) :
    ∫ ω, full e c (U ω) v (n + 1) i j ∂μ = (1 + e) / 2 * e ^ n * v i j := by
  simp only [full]
  rw [integral_add (((half_memLp hU e c v n i j).integrable one_le_two).const_mul _)
    (((hU.memLp n i j).integrable one_le_two).const_mul _), integral_const_mul, integral_const_mul,
    half_mean hU, hU.mean]
  ring

/-- The velocities do not depend on random numbers of later steps. -/
theorem half_noise (n : ℕ) (i i' : ι) (j j' : Fin 3) :
    ∀ k, n ≤ k → ∫ ω, half e c (U ω) v n i j * (U ω k i' j' - 1 / 2) ∂μ = 0 := by
  induction n with
  | zero =>
    intro k _
    simp only [half]
    rw [integral_const_mul, hU.mean, mul_zero]
  | succ n ih =>
    intro k hk
    have h1 := (half_memLp hU e c v n i j).integrable_mul (hU.memLp k i' j')
    have h2 := (hU.memLp n i j).integrable_mul (hU.memLp k i' j')
    have : (fun ω => half e c (U ω) v (n + 1) i j * (U ω k i' j' - 1 / 2)) = fun ω =>
        e * (half e c (U ω) v n i j * (U ω k i' j' - 1 / 2)) +
        c i * ((U ω n i j - 1 / 2) * (U ω k i' j' - 1 / 2)) := by
      funext ω; simp only [half]; ring
    rw [this]
    refine (integral_lin2 h1 h2 e (c i)).trans ?_
    simp only [Pi.mul_apply]
    rw [ih k (by omega), hU.cov, if_neg (fun h => by simp only [Prod.mk.injEq] at h; omega)]
    simp

/-- The product of two sums of a velocity and a random number. -/
theorem combine (n : ℕ) (i i' : ι) (j j' : Fin 3) (a b a' b' : ℝ) :
    ∫ ω, (a * half e c (U ω) v n i j + b * (U ω n i j - 1 / 2)) *
        (a' * half e c (U ω) v n i' j' + b' * (U ω n i' j' - 1 / 2)) ∂μ =
      a * a' * ∫ ω, half e c (U ω) v n i j * half e c (U ω) v n i' j' ∂μ +
        b * b' * (if (i, j) = (i', j') then 1 / 12 else 0) := by
  have h1 := (half_memLp hU e c v n i j).integrable_mul (half_memLp hU e c v n i' j')
  have h2 := (half_memLp hU e c v n i j).integrable_mul (hU.memLp n i' j')
  have h3 := (half_memLp hU e c v n i' j').integrable_mul (hU.memLp n i j)
  have h4 := (hU.memLp n i j).integrable_mul (hU.memLp n i' j')
  have : (fun ω => (a * half e c (U ω) v n i j + b * (U ω n i j - 1 / 2)) *
        (a' * half e c (U ω) v n i' j' + b' * (U ω n i' j' - 1 / 2))) = fun ω =>
      ((a * a') * (half e c (U ω) v n i j * half e c (U ω) v n i' j') +
        (a * b') * (half e c (U ω) v n i j * (U ω n i' j' - 1 / 2))) +
      ((a' * b) * (half e c (U ω) v n i' j' * (U ω n i j - 1 / 2)) +
        (b * b') * ((U ω n i j - 1 / 2) * (U ω n i' j' - 1 / 2))) := by
    funext ω; ring
  rw [this]
  refine (integral_lin4 h1 h2 h3 h4 (a * a') (a * b') (a' * b) (b * b')).trans ?_
  simp only [Pi.mul_apply]
  rw [half_noise hU e c v n i i' j j' n le_rfl, half_noise hU e c v n i' i j' j n le_rfl, hU.cov]
  simp

theorem half_square (n : ℕ) (i i' : ι) (j j' : Fin 3) (K : ℝ)
    (hK : (1 - e * e) * K = c i * c i' * (if (i, j) = (i', j') then 1 / 12 else 0)) :
    ∫ ω, half e c (U ω) v n i j * half e c (U ω) v n i' j' ∂μ =
      e ^ (2 * n) * (v i j * v i' j' - K) + K := by
  induction n with
  | zero => simp [half]
  | succ n ih =>
    refine (combine hU e c v n i i' j j' e (c i) e (c i')).trans ?_
    rw [ih, ← hK]
    ring

theorem full_square (n : ℕ) (i i' : ι) (j j' : Fin 3) (K : ℝ)
    (hK : (1 - e * e) * K = c i * c i' * (if (i, j) = (i', j') then 1 / 12 else 0)) :
    ∫ ω, full e c (U ω) v (n + 1) i j * full e c (U ω) v (n + 1) i' j' ∂μ =
      ((1 + e) / 2) ^ 2 * e ^ (2 * n) * (v i j * v i' j' - K) + (1 + e) / 2 * K := by
  refine (combine hU e c v n i i' j j' ((1 + e) / 2) (c i / 2) ((1 + e) / 2) (c i' / 2)).trans ?_
  rw [half_square hU e c v n i i' j j' K hK,
    show c i / 2 * (c i' / 2) * (if (i, j) = (i', j') then 1 / 12 else 0) =
      (c i * c i' * (if (i, j) = (i', j') then 1 / 12 else 0)) / 4 by ring, ← hK]
  ring

end Verif.Thermo
