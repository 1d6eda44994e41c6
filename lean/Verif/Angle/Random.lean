import Verif.Angle.Props
import Mathlib.MeasureTheory.Integral.IntervalIntegral.FundThmCalculus
import Mathlib.MeasureTheory.Integral.Bochner.Set
import Mathlib.Analysis.SpecialFunctions.Integrals.Basic

/-!
# Random angles and bond lengths (C53)

The functions `randomAngle`, `randomCosineAngle` and `randomBondLength` repeat trials until one is
accepted. A trial is described by the density `q` of the trial values and the number `p x` with
which a uniform random number in `[0,1)` is compared. The value returned is then in a set `A` with
probability `outProb q p A`. That independent repeated trials give this distribution is part of
the description of the sampler, not proved here.
-/

set_option autoImplicit false

namespace Verif.Angle

open Verif.Boundary hiding dot
open Verif.Pair Verif.Bond
open MeasureTheory Set

/-- Probability that `random->uniform() < p`. -/
noncomputable def accProb (p : ℝ) : ℝ := max 0 (min 1 p)

/-- Distribution of the value returned by a loop that repeats trials until acceptance. -/
noncomputable def outProb (q p : ℝ → ℝ) (A : Set ℝ) : ℝ :=
  (∫ x in A, q x * accProb (p x)) / ∫ x, q x * accProb (p x)

/-- `random->uniform(lo, hi)`. -/
noncomputable def uniform (lo hi : ℝ) : ℝ → ℝ := (Icc lo hi).indicator fun _ => 1 / (hi - lo)

/-- `x0 + sd*random->gaussian()`. -/
noncomputable def gauss (x0 sd : ℝ) (x : ℝ) : ℝ :=
  1 / (sd * Real.sqrt (2 * Real.pi)) * Real.exp (-(x - x0) ^ 2 / (2 * sd ^ 2))

/-- Acceptance of a trial length in `HarmonicBond::randomBondLength` (HarmonicBond.cpp:124-137):
negative lengths are discarded, and `x*x/xm2` is compared to a uniform random number. -/
noncomputable def acceptLength (kappa length beta : ℝ) (x : ℝ) : ℝ :=
  let sd := 1 / Real.sqrt (beta * kappa)
  let xm2 := length + 7 * sd
  let xm2 := xm2 * xm2
  if x < 0 then 0 else x * x / xm2

/-- Trials of `HarmonicBond::randomBondLength` (HarmonicBond.cpp:124-132). -/
noncomputable def trialLength (kappa length beta : ℝ) : ℝ → ℝ :=
  gauss length (1 / Real.sqrt (beta * kappa))

/-! ## Specification -/

/-- Probability of a set in the distribution with density proportional to `w`. -/
noncomputable def prob (w : ℝ → ℝ) (A : Set ℝ) : ℝ := (∫ x in A, w x) / ∫ x, w x

/-- Weight of a cosine between randomly oriented bonds: uniform times the Boltzmann factor. -/
noncomputable def cosineWeight (U : ℝ → ℝ) (beta : ℝ) : ℝ → ℝ :=
  (Icc (-1) 1).indicator fun c => Real.exp (-beta * U c)

/-- Weight of an angle between randomly oriented bonds: the sine times the Boltzmann factor. -/
noncomputable def angleWeight (U : ℝ → ℝ) (beta : ℝ) : ℝ → ℝ :=
  (Icc 0 Real.pi).indicator fun t => Real.sin t * Real.exp (-beta * U (Real.cos t))

/-- Weight of the length of a randomly oriented bond. -/
noncomputable def lengthWeight (U : ℝ → ℝ) (beta : ℝ) : ℝ → ℝ :=
  (Ici 0).indicator fun x => x ^ 2 * Real.exp (-beta * U (x * x))

/-! ## Lemmas -/

theorem outProb_eq {q p w : ℝ → ℝ} {k : ℝ} (hk : k ≠ 0) (h : ∀ x, q x * accProb (p x) = k * w x)
    (A : Set ℝ) : outProb q p A = prob w A := by
  unfold outProb prob
  simp only [h]
  rw [integral_const_mul, integral_const_mul, mul_div_mul_left _ _ hk]

theorem accProb_of_mem {p : ℝ} (h0 : 0 ≤ p) (h1 : p ≤ 1) : accProb p = p := by
  unfold accProb; rw [min_eq_right h1, max_eq_right h0]

theorem accProb_of_nonpos {p : ℝ} (h : p ≤ 0) : accProb p = 0 := by
  unfold accProb
  exact max_eq_left (le_trans (min_le_right _ _) h)

/-! ## C53: cosines -/

/-- `randomCosineAngle`: if the reference cosine minimises the energy, the cosine returned has the
Boltzmann distribution for randomly oriented bonds. -/
theorem cosine_sampler (U : ℝ → ℝ) (beta cMin : ℝ) (hb : 0 ≤ beta)
    (hmin : ∀ c, -1 ≤ c → c ≤ 1 → U cMin ≤ U c) (A : Set ℝ) :
    outProb (uniform (-1) 1) (acceptCosine U beta cMin) A = prob (cosineWeight U beta) A := by
  refine outProb_eq (k := 1 / 2 * Real.exp (beta * U cMin)) (by positivity) (fun c => ?_) A
  unfold uniform cosineWeight
  by_cases hc : c ∈ Icc (-1 : ℝ) 1
  · rw [indicator_of_mem hc, indicator_of_mem hc, acceptCosine, accProb_of_mem (Real.exp_pos _).le]
    · rw [mul_assoc, ← Real.exp_add]
      norm_num
      congr 1; ring
    · rw [Real.exp_le_one_iff]
      have := hmin c hc.1 hc.2
      nlinarith [mul_nonneg hb (sub_nonneg.2 this)]
  · rw [indicator_of_notMem hc, indicator_of_notMem hc]; simp

/-- Cosine angle with `kappa ≥ 0`. -/
theorem C53_cosine_randomCosine (kappa beta : ℝ) (hk : 0 ≤ kappa) (hb : 0 ≤ beta) (A : Set ℝ) :
    outProb (uniform (-1) 1) (acceptCosine (cosineEnergy kappa) beta 1) A
      = prob (cosineWeight (cosineEnergy kappa) beta) A :=
  cosine_sampler _ _ _ hb (fun c _ h1 => by unfold cosineEnergy; nlinarith) A

/-- Squared cosine angle with `kappa ≥ 0`. -/
theorem C53_cosSq_randomCosine (s : CosSq) (type : ℤ) (beta : ℝ) (hk : 0 ≤ s.kappa type) (hb : 0 ≤ beta)
    (A : Set ℝ) :
    outProb (uniform (-1) 1) (acceptCosine (fun c => s.energy c type) beta (s.cosTheta0 type)) A
      = prob (cosineWeight (fun c => s.energy c type) beta) A :=
  cosine_sampler _ _ _ hb (fun c _ _ => by
    unfold CosSq.energy
    have := mul_nonneg hk (sq_nonneg (c - s.cosTheta0 type))
    norm_num
    nlinarith) A

/-- Harmonic angle with `kappa ≥ 0` and `theta0` in `[0, π]`. -/
theorem C53_harmonic_randomCosine (s : Harmonic) (type : ℤ) (beta : ℝ) (hk : 0 ≤ s.kappa type)
    (hb : 0 ≤ beta) (h0 : 0 ≤ s.theta0 type) (h1 : s.theta0 type ≤ Real.pi) (A : Set ℝ) :
    outProb (uniform (-1) 1) (acceptCosine (fun c => s.energy c type) beta (Real.cos (s.theta0 type))) A
      = prob (cosineWeight (fun c => s.energy c type) beta) A :=
  cosine_sampler _ _ _ hb (fun c _ _ => by
    unfold Harmonic.energy
    simp only [Real.arccos_cos h0 h1]
    have := mul_nonneg hk (sq_nonneg (Real.arccos c - s.theta0 type))
    norm_num
    nlinarith) A

/-! ## C53: angles -/

/-- `randomAngle` never returns an angle whose cosine and that of the reference angle have opposite
signs. -/
theorem C53_randomAngle_never (U : ℝ → ℝ) (beta thetaMin : ℝ) :
    outProb (uniform 0 Real.pi) (acceptAngle U beta thetaMin)
      {t | Real.cos t * Real.cos thetaMin ≤ 0} = 0 := by
  unfold outProb
  rw [setIntegral_eq_zero_of_forall_eq_zero, zero_div]
  intro t ht
  rw [accProb_of_nonpos, mul_zero]
  unfold acceptAngle
  rw [mul_div_assoc]
  apply mul_nonpos_of_nonneg_of_nonpos (Real.exp_pos _).le
  rw [div_eq_mul_inv]
  have ht : Real.cos t * Real.cos thetaMin ≤ 0 := ht
  have : Real.cos t * (Real.cos thetaMin)⁻¹
      = Real.cos t * Real.cos thetaMin * ((Real.cos thetaMin)⁻¹ * (Real.cos thetaMin)⁻¹) := by
    by_cases h : Real.cos thetaMin = 0
    · rw [h]; simp
    · field_simp
  rw [this]
  exact mul_nonpos_of_nonpos_of_nonneg ht (mul_self_nonneg _)

/-- For the cosine angle, `randomAngle` never returns an angle above a right angle, although such
angles have positive probability for every `kappa` and temperature. -/
theorem C53_cosine_randomAngle_wrong (kappa beta : ℝ) :
    outProb (uniform 0 Real.pi) (acceptAngle (cosineEnergy kappa) beta 0) (Ioc (Real.pi / 2) Real.pi) = 0 ∧
    0 < prob (angleWeight (cosineEnergy kappa) beta) (Ioc (Real.pi / 2) Real.pi) := by
  constructor
  · unfold outProb
    rw [setIntegral_eq_zero_of_forall_eq_zero, zero_div]
    intro t ht
    rw [accProb_of_nonpos, mul_zero]
    unfold acceptAngle
    rw [Real.cos_zero, div_one]
    apply mul_nonpos_of_nonneg_of_nonpos (Real.exp_pos _).le
    exact Real.cos_nonpos_of_pi_div_two_le_of_le ht.1.le (by linarith [ht.2, Real.pi_pos])
  · have hc : Continuous fun t => Real.sin t * Real.exp (-beta * cosineEnergy kappa (Real.cos t)) := by
      unfold cosineEnergy; fun_prop
    have hp := Real.pi_pos
    have pos : ∀ a, 0 ≤ a → a < Real.pi →
        0 < ∫ t in a..Real.pi, Real.sin t * Real.exp (-beta * cosineEnergy kappa (Real.cos t)) := by
      intro a ha hap
      refine intervalIntegral.intervalIntegral_pos_of_pos_on (hc.intervalIntegrable _ _) ?_ hap
      intro t ht
      exact mul_pos (Real.sin_pos_of_pos_of_lt_pi (lt_of_le_of_lt ha ht.1) ht.2) (Real.exp_pos _)
    unfold prob angleWeight
    apply div_pos
    · have := pos (Real.pi / 2) (by linarith) (by linarith)
      rw [intervalIntegral.integral_of_le (by linarith)] at this
      rw [setIntegral_indicator measurableSet_Icc]
      have e : Ioc (Real.pi / 2) Real.pi ∩ Icc 0 Real.pi = Ioc (Real.pi / 2) Real.pi := by
        ext t; constructor
        · exact fun h => h.1
        · exact fun h => ⟨h, by linarith [h.1], h.2⟩
      rw [e]; exact this
    · have := pos 0 le_rfl hp
      rw [intervalIntegral.integral_of_le hp.le] at this
      rw [integral_indicator measurableSet_Icc, integral_Icc_eq_integral_Ioc]
      exact this

/-! ## C53: bond lengths -/

/-- `HarmonicBond::randomBondLength`: up to seven standard deviations above the equilibrium
length, the density of the lengths returned is proportional to `x²` times the Boltzmann factor.
The full property asks for this at all lengths; above this distance the acceptance probability
saturates. -/
theorem C53_harmonic_length_partial (s : Harm) (type : ℤ) (beta : ℝ) (hb : 0 < beta)
    (hk : 0 < s.kappa type) (hl : 0 ≤ s.length type) :
    ∃ k, 0 < k ∧ ∀ x, x ≤ s.length type + 7 / Real.sqrt (beta * s.kappa type) →
      trialLength (s.kappa type) (s.length type) beta x
          * accProb (acceptLength (s.kappa type) (s.length type) beta x)
        = k * lengthWeight (fun r2 => s.energy r2 type) beta x := by
  have hbk := mul_pos hb hk
  have hsd := Real.sqrt_pos.2 hbk
  have hss := Real.mul_self_sqrt hbk.le
  set q := Real.sqrt (beta * s.kappa type) with hq
  have hm : 0 < s.length type + 7 * (1 / q) := by positivity
  refine ⟨1 / (1 / q * Real.sqrt (2 * Real.pi)) / ((s.length type + 7 * (1 / q)) * (s.length type + 7 * (1 / q))),
    by positivity, fun x hx => ?_⟩
  unfold trialLength acceptLength gauss lengthWeight
  rw [← hq]
  by_cases h0 : x < 0
  · rw [if_pos h0, accProb_of_nonpos le_rfl, indicator_of_notMem (by simpa using h0)]; simp
  · have h0' : 0 ≤ x := not_lt.1 h0
    rw [if_neg h0, indicator_of_mem (show x ∈ Ici (0 : ℝ) from h0'), accProb_of_mem (by positivity)]
    · have e : -(x - s.length type) ^ 2 / (2 * (1 / q) ^ 2) = -beta * s.energy (x * x) type := by
        have : (1 / q) ^ 2 = 1 / (beta * s.kappa type) := by
          rw [div_pow, sq q, hss]; ring
        rw [this]
        simp only [Harm.energy, Real.sqrt_mul_self h0']
        norm_num
        field_simp
      rw [e]
      ring
    · rw [div_le_one (by positivity)]
      have : x ≤ s.length type + 7 * (1 / q) := by
        rw [mul_one_div]; exact hx
      nlinarith

example : ∃ s : Harm, 0 < s.kappa 0 ∧ 0 ≤ s.length 0 := ⟨⟨fun _ => 1, fun _ => 1, 1⟩, by simp, by simp⟩

end Verif.Angle
