/-
Independent normal deviates for all components of all velocities give the
Maxwell-Boltzmann distribution.
-/
import Verif.Integrate.Thermostat
import Mathlib.Probability.Distributions.Gaussian.Real
import Mathlib.MeasureTheory.Constructions.Pi
import Mathlib.MeasureTheory.Measure.WithDensity

set_option autoImplicit false

namespace Verif.Integrate

open Verif.Boundary MeasureTheory ProbabilityTheory
open scoped ENNReal NNReal

/-- Integral of a product of functions of different variables. -/
theorem lintegral_fin_prod {n : ℕ} {E : Type} [MeasurableSpace E] {μ : Fin n → Measure E}
    [∀ i, SigmaFinite (μ i)] (f : Fin n → E → ℝ≥0∞) (hf : ∀ i, Measurable (f i)) :
    ∫⁻ x : Fin n → E, ∏ i, f i (x i) ∂(Measure.pi μ) = ∏ i, ∫⁻ x, f i x ∂(μ i) := by
  induction n with
  | zero => simp
  | succ n ih =>
    calc
      _ = ∫⁻ x : E × (Fin n → E), f 0 x.1 * ∏ i : Fin n, f (Fin.succ i) (x.2 i)
          ∂((μ 0).prod (Measure.pi (fun i => μ i.succ))) := by
        rw [← ((measurePreserving_piFinSuccAbove μ 0).symm).lintegral_comp_emb
          (MeasurableEquiv.measurableEmbedding _)]
        refine lintegral_congr fun x => ?_
        rw [Fin.prod_univ_succ]
        rfl
      _ = (∫⁻ x, f 0 x ∂μ 0) * ∏ i : Fin n, ∫⁻ x, f (Fin.succ i) x ∂(μ i.succ) := by
        rw [← ih (μ := fun i => μ i.succ) _ fun i => hf i.succ]
        refine lintegral_prod_mul (μ := μ 0) (ν := Measure.pi fun i => μ i.succ) (f := f 0)
          (g := fun x => ∏ i : Fin n, f (Fin.succ i) (x i)) (hf 0).aemeasurable ?_
        exact (Finset.measurable_prod _ fun i _ =>
          (hf i.succ).comp (measurable_pi_apply i)).aemeasurable
      _ = ∏ i, ∫⁻ x, f i x ∂(μ i) := by rw [Fin.prod_univ_succ]

theorem lintegral_prod_pi {ι E : Type} [Fintype ι] [MeasurableSpace E] {μ : ι → Measure E}
    [∀ i, SigmaFinite (μ i)] (f : ι → E → ℝ≥0∞) (hf : ∀ i, Measurable (f i)) :
    ∫⁻ x : ι → E, ∏ i, f i (x i) ∂(Measure.pi μ) = ∏ i, ∫⁻ x, f i x ∂(μ i) := by
  let e := (Fintype.equivFin ι).symm
  rw [← (measurePreserving_piCongrLeft (α := fun _ => E) μ e).lintegral_comp_emb
    (MeasurableEquiv.measurableEmbedding _)]
  have h := lintegral_fin_prod (μ := fun i => μ (e i)) (fun i => f (e i)) fun i => hf (e i)
  rw [← e.prod_comp fun i => ∫⁻ x, f i x ∂(μ i), ← h]
  refine lintegral_congr fun x => ?_
  rw [← e.prod_comp]
  refine Finset.prod_congr rfl fun i _ => ?_
  rw [MeasurableEquiv.coe_piCongrLeft, Equiv.piCongrLeft_apply_apply]

/-- Product of distributions given by densities. -/
theorem pi_withDensity {ι E : Type} [Fintype ι] [MeasurableSpace E] {μ : ι → Measure E}
    [∀ i, SigmaFinite (μ i)] (f : ι → E → ℝ≥0∞) (hf : ∀ i, Measurable (f i))
    [∀ i, SigmaFinite ((μ i).withDensity (f i))] :
    (Measure.pi fun i => (μ i).withDensity (f i)) =
      (Measure.pi μ).withDensity fun x => ∏ i, f i (x i) := by
  refine Measure.pi_eq (μ := fun i => (μ i).withDensity (f i)) fun s hs => ?_
  rw [withDensity_apply _ (MeasurableSet.univ_pi hs), ← lintegral_indicator (MeasurableSet.univ_pi hs)]
  have : ∀ x : ι → E, (Set.univ.pi s).indicator (fun x => ∏ i, f i (x i)) x =
      ∏ i, (s i).indicator (f i) (x i) := by
    intro x
    by_cases hx : x ∈ Set.univ.pi s
    · rw [Set.indicator_of_mem hx]
      exact Finset.prod_congr rfl fun i _ => by
        rw [Set.indicator_of_mem (hx i (Set.mem_univ i))]
    · rw [Set.indicator_of_notMem hx]
      have : ∃ i, x i ∉ s i := by
        by_contra h
        push Not at h
        exact hx fun i _ => h i
      obtain ⟨i, hi⟩ := this
      exact (Finset.prod_eq_zero (Finset.mem_univ i) (Set.indicator_of_notMem hi _)).symm
  simp only [this]
  rw [lintegral_prod_pi _ fun i => (hf i).indicator (hs i)]
  refine Finset.prod_congr rfl fun i _ => ?_
  rw [lintegral_indicator (hs i), withDensity_apply _ (hs i)]

/-- Distribution of the deviates returned by Random::gaussian(), one for every
component of the velocity of every atom. -/
noncomputable def deviates (ι : Type) [Fintype ι] : Measure (ι → Vec) :=
  Measure.pi fun _ => Measure.pi fun _ => gaussianReal 0 1

/-- Velocities computed from the deviates. -/
noncomputable def velocities {ι : Type} (m : ι → ℝ) (T : ℝ) (gs : ι → Vec) : ι → Vec :=
  fun i j => Real.sqrt (T / m i) * gs i j

/-- Kinetic energy. -/
noncomputable def kinetic {ι : Type} [Fintype ι] (m : ι → ℝ) (v : ι → Vec) : ℝ :=
  (∑ i, m i * sq (v i)) / 2

theorem gaussianPDF_exp {T m : ℝ} (hT : 0 < T) (hm : 0 < m) (x : ℝ) :
    gaussianPDF 0 (T / m).toNNReal x =
      ENNReal.ofReal (Real.sqrt (2 * Real.pi * (T / m)))⁻¹ *
        ENNReal.ofReal (Real.exp (-(m * (x * x) / 2) / T)) := by
  have h : 0 < T / m := div_pos hT hm
  unfold gaussianPDF gaussianPDFReal
  rw [← ENNReal.ofReal_mul (by positivity), Real.coe_toNNReal _ h.le]
  congr 3
  rw [sub_zero]
  field_simp

/-- **Maxwell-Boltzmann.** -/
theorem deviates_lintegral {ι : Type} [Fintype ι] {m : ι → ℝ} (hm : ∀ i, 0 < m i) {T : ℝ} (hT : 0 < T) :
    ∃ Z : ℝ≥0∞, ∀ f : (ι → Vec) → ℝ≥0∞, Measurable f →
      ∫⁻ gs, f (velocities m T gs) ∂(deviates ι) =
        Z * ∫⁻ v, ENNReal.ofReal (Real.exp (-kinetic m v / T)) * f v := by
  classical
  have hv : ∀ i, (T / m i).toNNReal ≠ 0 := fun i => by
    have : 0 < T / m i := div_pos hT (hm i)
    simpa using this
  -- one component
  have h1 : ∀ i, MeasurePreserving (fun x => Real.sqrt (T / m i) * x) (gaussianReal 0 1)
      (gaussianReal 0 (T / m i).toNNReal) := fun i => by
    refine ⟨measurable_const_mul _, ?_⟩
    rw [gaussianReal_map_const_mul, mul_zero, mul_one]
    congr 1
    ext
    have : 0 < T / m i := div_pos hT (hm i)
    simp [Real.sq_sqrt this.le, this.le]
  have h2 : MeasurePreserving (velocities m T) (deviates ι)
      (Measure.pi fun i => Measure.pi fun _ : Fin 3 => gaussianReal 0 (T / m i).toNNReal) :=
    measurePreserving_pi _ _ fun i => measurePreserving_pi _ _ fun _ => h1 i
  have h3 : ∀ i, (Measure.pi fun _ : Fin 3 => gaussianReal 0 (T / m i).toNNReal) =
      (volume : Measure Vec).withDensity fun x => ∏ j, gaussianPDF 0 (T / m i).toNNReal (x j) := by
    intro i
    have hg := gaussianReal_of_var_ne_zero 0 (hv i)
    have : ∀ _ : Fin 3, SigmaFinite ((volume : Measure ℝ).withDensity
        (gaussianPDF 0 (T / m i).toNNReal)) := fun _ => by rw [← hg]; infer_instance
    rw [hg]
    exact @pi_withDensity (Fin 3) ℝ _ _ (fun _ => volume) _
      (fun _ => gaussianPDF 0 (T / m i).toNNReal) (fun _ => measurable_gaussianPDF _ _) this
  have hd : ∀ i, Measurable fun x : Vec => ∏ j, gaussianPDF 0 (T / m i).toNNReal (x j) := fun i =>
    Finset.measurable_prod _ fun j _ => (measurable_gaussianPDF _ _).comp (measurable_pi_apply j)
  have h4 : (Measure.pi fun i => Measure.pi fun _ : Fin 3 => gaussianReal 0 (T / m i).toNNReal) =
      (volume : Measure (ι → Vec)).withDensity fun v =>
        ∏ i, ∏ j, gaussianPDF 0 (T / m i).toNNReal (v i j) := by
    have hsf : ∀ i, SigmaFinite ((volume : Measure Vec).withDensity
        fun x => ∏ j, gaussianPDF 0 (T / m i).toNNReal (x j)) := fun i => by
      rw [← h3]; infer_instance
    have : (fun i => Measure.pi fun _ : Fin 3 => gaussianReal 0 (T / m i).toNNReal) =
        fun i => (volume : Measure Vec).withDensity
          fun x => ∏ j, gaussianPDF 0 (T / m i).toNNReal (x j) := funext h3
    rw [this]
    exact @pi_withDensity ι Vec _ _ (fun _ => volume) _
      (fun i x => ∏ j, gaussianPDF 0 (T / m i).toNNReal (x j)) hd hsf
  refine ⟨∏ i, ∏ _j : Fin 3, ENNReal.ofReal (Real.sqrt (2 * Real.pi * (T / m i)))⁻¹, fun f hf => ?_⟩
  have hden : Measurable fun v : ι → Vec => ∏ i, ∏ j, gaussianPDF 0 (T / m i).toNNReal (v i j) :=
    Finset.measurable_prod _ fun i _ => (hd i).comp (measurable_pi_apply i)
  rw [h2.lintegral_comp hf, h4, lintegral_withDensity_eq_lintegral_mul _ hden hf]
  have hme : Measurable fun v : ι → Vec =>
      ENNReal.ofReal (Real.exp (-kinetic m v / T)) * f v := by
    refine Measurable.mul ?_ hf
    unfold kinetic sq
    fun_prop
  rw [← lintegral_const_mul _ hme]
  refine lintegral_congr fun v => ?_
  rw [Pi.mul_apply, ← mul_assoc]
  congr 1
  simp only [gaussianPDF_exp hT (hm _), Finset.prod_mul_distrib]
  congr 1
  simp only [← ENNReal.ofReal_prod_of_nonneg fun _ _ => (Real.exp_pos _).le, ← Real.exp_sum]
  congr 2
  unfold kinetic sq
  simp only [Fin.sum_univ_three]
  rw [neg_div, Finset.sum_div, Finset.sum_div, ← Finset.sum_neg_distrib]
  refine Finset.sum_congr rfl fun i _ => ?_
  ring

end Verif.Integrate
