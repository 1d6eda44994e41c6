/-
C53: distributions of random bond lengths (`randomBondLength`), and what they mean for
configurational-bias moves.

Sources: src/simp/interaction/bond/{HarmonicBond,HarmonicL0Bond,FeneBond}.cpp.  `Random::gaussian`
returns independent standard normal deviates and `Random::uniform(0, 1)` deviates with the uniform
distribution.
-/
import Verif.Cfb.Polar
import Verif.Integrate.Gauss
import Verif.Bond.Props

set_option autoImplicit false

namespace Verif.Cfb

open Verif.Boundary MeasureTheory ProbabilityTheory
open scoped ENNReal

/-! ### Loops that repeat trials -/

section

variable {D : Type} [MeasurableSpace D]

/-- Probability that a loop of the form `for (;;) { … if accepted return x; }` returns a value in
`A` within `n` trials; a trial draws `d` and returns a value or continues. -/
noncomputable def retry (μ : Measure D) (trial : D → Option ℝ) (A : Set ℝ) : ℕ → ℝ≥0∞
  | 0 => 0
  | n + 1 => ∫⁻ d, (match trial d with
      | some x => A.indicator 1 x
      | none => retry μ trial A n) ∂μ

/-- `ρ` is the distribution of the value that such a loop returns. -/
def IsLaw (ρ : Measure ℝ) (μ : Measure D) (trial : D → Option ℝ) : Prop :=
  ∀ A, MeasurableSet A → ρ A = ⨆ n, retry μ trial A n

/-- Trials that return a value in `A`. -/
def hits (trial : D → Option ℝ) (A : Set ℝ) : Set D := {d | ∃ x ∈ A, trial d = some x}

variable {μ : Measure D} {trial : D → Option ℝ}

theorem retry_succ [IsProbabilityMeasure μ] (hm : ∀ A, MeasurableSet A → MeasurableSet (hits trial A))
    {A : Set ℝ} (hA : MeasurableSet A) (n : ℕ) : retry μ trial A (n + 1) =
      μ (hits trial A) + (1 - μ (hits trial Set.univ)) * retry μ trial A n := by
  have h1 : ∀ d, (match trial d with
      | some x => A.indicator 1 x
      | none => retry μ trial A n) = (hits trial A).indicator (fun _ => (1 : ℝ≥0∞)) d +
        (hits trial Set.univ)ᶜ.indicator (fun _ => retry μ trial A n) d := by
    intro d
    cases hd : trial d with
    | none =>
      rw [Set.indicator_of_notMem (by simp [hits, hd]), Set.indicator_of_mem (by simp [hits, hd]), zero_add]
    | some x =>
      have hu : d ∉ (hits trial Set.univ)ᶜ := by simp [hits, hd]
      rw [Set.indicator_of_notMem hu, add_zero]
      change A.indicator 1 x = _
      by_cases hx : x ∈ A
      · rw [Set.indicator_of_mem hx, Set.indicator_of_mem (show d ∈ hits trial A from ⟨x, hx, hd⟩), Pi.one_apply]
      · rw [Set.indicator_of_notMem hx, Set.indicator_of_notMem (by simp [hits, hd, hx])]
  change ∫⁻ d, (match trial d with
      | some x => A.indicator 1 x
      | none => retry μ trial A n) ∂μ = _
  simp only [h1]
  rw [lintegral_add_left (measurable_const.indicator (hm A hA)), lintegral_indicator (hm A hA),
    lintegral_indicator (hm _ MeasurableSet.univ).compl, setLIntegral_const, setLIntegral_const, one_mul,
    prob_compl_eq_one_sub (hm _ MeasurableSet.univ), mul_comm]

/-- The distribution of the returned value is that of accepted trials. -/
theorem iSup_retry [IsProbabilityMeasure μ] (hm : ∀ A, MeasurableSet A → MeasurableSet (hits trial A))
    {A : Set ℝ} (hA : MeasurableSet A) :
    ⨆ n, retry μ trial A n = (μ (hits trial Set.univ))⁻¹ * μ (hits trial A) := by
  have h : ∀ n, retry μ trial A n =
      ∑ k ∈ Finset.range n, μ (hits trial A) * (1 - μ (hits trial Set.univ)) ^ k := by
    intro n
    induction n with
    | zero => rfl
    | succ n ih =>
      rw [retry_succ hm hA, ih, Finset.sum_range_succ', pow_zero, mul_one, add_comm, Finset.mul_sum]
      congr 1
      exact Finset.sum_congr rfl fun k _ => by ring
  simp only [h]
  rw [← ENNReal.tsum_eq_iSup_nat, ENNReal.tsum_mul_left, ENNReal.tsum_geometric,
    ENNReal.sub_sub_cancel ENNReal.one_ne_top prob_le_one, mul_comm]

end

/-! ### Harmonic bonds -/

/-- Uniform deviates between 0 and 1. -/
noncomputable def unit01 : Measure ℝ := volume.restrict (Set.Ico 0 1)

instance : IsProbabilityMeasure unit01 := ⟨by simp [unit01]⟩

/-- A trial in `HarmonicBond::randomBondLength`, HarmonicBond.cpp:124-136 (the second deviate is
only drawn if it is used). -/
noncomputable def harmTrial (s : Bond.Harm) (beta : ℝ) (type : ℤ) (d : ℝ × ℝ) : Option ℝ :=
  let sd := 1.0 / Real.sqrt (beta * s.kappa type)
  let x0 := s.length type
  let xm2 := s.length type + 7.0 * sd
  let xm2 := xm2 * xm2
  let x := x0 + sd * d.1
  by classical exact
    if x < 0 then none
    else if x * x / xm2 ≥ d.2 then some x
    else none

/-- Length up to which the distribution is exact. -/
noncomputable def harmMax (s : Bond.Harm) (beta : ℝ) (type : ℤ) : ℝ :=
  s.length type + 7 * (1 / Real.sqrt (beta * s.kappa type))

theorem unit01_le (y : ℝ) : unit01 {v | v ≤ y} = ENNReal.ofReal (min 1 y) := by
  have hmy : MeasurableSet {v : ℝ | v ≤ y} := measurableSet_Iic
  unfold unit01
  rw [Measure.restrict_apply hmy]
  rcases le_or_gt 1 y with h | h
  · have : {v | v ≤ y} ∩ Set.Ico 0 1 = Set.Ico 0 1 := by
      ext v; simp only [Set.mem_inter_iff, Set.mem_ofPred_eq, Set.mem_Ico]; constructor
      · exact fun h => h.2
      · exact fun h' => ⟨by linarith [h'.2], h'⟩
    rw [this, min_eq_left h]
    simp
  · have : {v | v ≤ y} ∩ Set.Ico 0 1 = Set.Icc 0 y := by
      ext v; simp only [Set.mem_inter_iff, Set.mem_ofPred_eq, Set.mem_Ico, Set.mem_Icc]; constructor
      · exact fun h => ⟨h.2.1, h.1⟩
      · exact fun h' => ⟨h'.2, h'.1, by linarith [h'.2]⟩
    rw [this, min_eq_right h.le, Real.volume_Icc, sub_zero]

section

variable {s : Bond.Harm} {beta : ℝ} {type : ℤ}

theorem harm_hits (A : Set ℝ) : hits (harmTrial s beta type) A =
    {d | s.length type + 1 / Real.sqrt (beta * s.kappa type) * d.1 ∈ A ∩ Set.Ici 0 ∧
      d.2 ≤ (s.length type + 1 / Real.sqrt (beta * s.kappa type) * d.1) ^ 2 / harmMax s beta type ^ 2} := by
  classical
  have n1 : (1.0 : ℝ) = 1 := by norm_num
  have n7 : (7.0 : ℝ) = 7 := by norm_num
  ext d
  simp only [hits, harmTrial, harmMax, n1, n7, Set.mem_ofPred_eq, Set.mem_inter_iff, Set.mem_Ici, ← sq]
  constructor
  · rintro ⟨x, hx, h⟩
    split at h
    · cases h
    · next h0 =>
      split at h
      · next h1 =>
        cases h
        exact ⟨⟨hx, not_lt.1 h0⟩, h1⟩
      · cases h
  · rintro ⟨⟨h1, h2⟩, h3⟩
    exact ⟨_, h1, by rw [if_neg (not_lt.2 h2), if_pos h3]⟩

theorem harm_hits_measurable {A : Set ℝ} (hA : MeasurableSet A) :
    MeasurableSet (hits (harmTrial s beta type) A) := by
  rw [harm_hits]
  have h1 : Measurable fun d : ℝ × ℝ =>
      s.length type + 1 / Real.sqrt (beta * s.kappa type) * d.1 := by fun_prop
  exact (h1 (hA.inter measurableSet_Ici)).inter
    (measurableSet_le measurable_snd ((h1.pow_const 2).div_const _))

theorem var_ne {x : ℝ} (hx : 0 < x) : (1 / x).toNNReal ≠ 0 :=
  (Real.toNNReal_pos.2 (by positivity)).ne'

/-- Density of accepted trials. -/
noncomputable def harmDensity (s : Bond.Harm) (beta : ℝ) (type : ℤ) (x : ℝ) : ℝ≥0∞ :=
  gaussianPDF (s.length type) (1 / (beta * s.kappa type)).toNNReal x *
    ENNReal.ofReal (min 1 (x ^ 2 / harmMax s beta type ^ 2))

theorem harmDensity_measurable : Measurable (harmDensity s beta type) := by
  unfold harmDensity
  exact (measurable_gaussianPDF _ _).mul (by fun_prop)

theorem harm_measure (hb : 0 < beta) (hk : 0 < s.kappa type) {A : Set ℝ} (hA : MeasurableSet A) :
    ((gaussianReal 0 1).prod unit01) (hits (harmTrial s beta type) A) =
      ∫⁻ x in A ∩ Set.Ici 0, harmDensity s beta type x := by
  have hbk : 0 < beta * s.kappa type := mul_pos hb hk
  have hm := harm_hits_measurable (s := s) (beta := beta) (type := type) hA
  rw [Measure.prod_apply hm]
  have hsec : ∀ g : ℝ, unit01 (Prod.mk g ⁻¹' hits (harmTrial s beta type) A) =
      (A ∩ Set.Ici 0).indicator (fun x => ENNReal.ofReal (min 1 (x ^ 2 / harmMax s beta type ^ 2)))
        (s.length type + 1 / Real.sqrt (beta * s.kappa type) * g) := by
    intro g
    rw [harm_hits]
    by_cases h : s.length type + 1 / Real.sqrt (beta * s.kappa type) * g ∈ A ∩ Set.Ici 0
    · rw [Set.indicator_of_mem h, ← unit01_le]
      congr 1
      ext v
      simp only [Set.mem_preimage, Set.mem_ofPred_eq, h, true_and]
    · rw [Set.indicator_of_notMem h]
      convert measure_empty (μ := unit01)
      ext v
      simp only [Set.mem_preimage, Set.mem_ofPred_eq, h, false_and, Set.mem_empty_iff_false]
  simp only [hsec]
  have hmap : (gaussianReal 0 1).map (fun g => s.length type + 1 / Real.sqrt (beta * s.kappa type) * g) =
      gaussianReal (s.length type) (1 / (beta * s.kappa type)).toNNReal := by
    have e : (fun g => s.length type + 1 / Real.sqrt (beta * s.kappa type) * g) =
        (fun x => s.length type + x) ∘ (fun g => 1 / Real.sqrt (beta * s.kappa type) * g) := rfl
    rw [e, ← Measure.map_map (measurable_const_add _) (measurable_const_mul _),
      gaussianReal_map_const_mul, gaussianReal_map_const_add]
    congr 1
    · ring
    · ext
      rw [Real.coe_toNNReal _ (by positivity)]
      simp [Real.sq_sqrt hbk.le]
  have hmi : MeasurableSet (A ∩ Set.Ici (0 : ℝ)) := hA.inter measurableSet_Ici
  have hf : Measurable fun x : ℝ => ENNReal.ofReal (min 1 (x ^ 2 / harmMax s beta type ^ 2)) := by fun_prop
  rw [← lintegral_map (f := (A ∩ Set.Ici 0).indicator
      (fun x => ENNReal.ofReal (min 1 (x ^ 2 / harmMax s beta type ^ 2))))
    (hf.indicator hmi) (by fun_prop), hmap, lintegral_indicator hmi,
    gaussianReal_of_var_ne_zero _ (var_ne hbk), restrict_withDensity hmi,
    lintegral_withDensity_eq_lintegral_mul _ (measurable_gaussianPDF _ _) hf]
  rfl

/-- Probability that a trial is accepted. -/
noncomputable def harmAcc (s : Bond.Harm) (beta : ℝ) (type : ℤ) : ℝ≥0∞ :=
  ((gaussianReal 0 1).prod unit01) (hits (harmTrial s beta type) Set.univ)

theorem harmMax_pos (hb : 0 < beta) (hk : 0 < s.kappa type) (hl : 0 ≤ s.length type) :
    0 < harmMax s beta type := by
  have hbk : 0 < beta * s.kappa type := mul_pos hb hk
  unfold harmMax
  positivity

theorem harmAcc_ne_zero (hb : 0 < beta) (hk : 0 < s.kappa type) (hl : 0 ≤ s.length type) :
    harmAcc s beta type ≠ 0 := by
  have hX := harmMax_pos hb hk hl
  have hbk : 0 < beta * s.kappa type := mul_pos hb hk
  unfold harmAcc
  rw [harm_measure hb hk MeasurableSet.univ, Set.univ_inter]
  refine (lt_of_lt_of_le ?_ (lintegral_mono_set (Set.Ioi_subset_Ici_self (a := (0 : ℝ))))).ne'
  rw [setLIntegral_pos_iff harmDensity_measurable]
  have : Function.support (harmDensity s beta type) ∩ Set.Ioi 0 = Set.Ioi 0 := by
    refine Set.inter_eq_right.2 fun x hx => ?_
    have hx' : (0 : ℝ) < x := hx
    rw [Function.mem_support]
    refine mul_ne_zero (gaussianPDF_pos _ (var_ne hbk) _).ne' ?_
    rw [Ne, ENNReal.ofReal_eq_zero, not_le]
    positivity
  rw [this]
  simp

theorem harmAcc_ne_top : harmAcc s beta type ≠ ∞ := measure_ne_top _ _

/-- Factor of the distribution. -/
noncomputable def harmCst (s : Bond.Harm) (beta : ℝ) (type : ℤ) : ℝ≥0∞ :=
  (harmAcc s beta type)⁻¹ * ENNReal.ofReal ((Real.sqrt (2 * Real.pi * (1 / (beta * s.kappa type))))⁻¹ *
    (harmMax s beta type ^ 2)⁻¹)

theorem harmDensity_eq (hb : 0 < beta) (hk : 0 < s.kappa type) (hl : 0 ≤ s.length type) {x : ℝ}
    (h0 : 0 ≤ x) (h1 : x ≤ harmMax s beta type) : (harmAcc s beta type)⁻¹ * harmDensity s beta type x =
      harmCst s beta type * (ENNReal.ofReal (x ^ 2) *
        ENNReal.ofReal (Real.exp (-beta * s.energy (x ^ 2) type))) := by
  have hX := harmMax_pos hb hk hl
  have hbk : 0 < beta * s.kappa type := mul_pos hb hk
  have hm : x ^ 2 / harmMax s beta type ^ 2 ≤ 1 := by
    rw [div_le_one (by positivity)]
    exact pow_le_pow_left₀ h0 h1 2
  unfold harmDensity harmCst
  rw [min_eq_right hm, mul_assoc]
  congr 1
  unfold gaussianPDF gaussianPDFReal
  rw [← ENNReal.ofReal_mul (by positivity), ← ENNReal.ofReal_mul (by positivity),
    ← ENNReal.ofReal_mul (by positivity), Real.coe_toNNReal _ (by positivity)]
  congr 1
  have he : -(x - s.length type) ^ 2 / (2 * (1 / (beta * s.kappa type))) =
      -beta * s.energy (x ^ 2) type := by
    unfold Bond.Harm.energy
    rw [Real.sqrt_sq h0]
    have : (0.5 : ℝ) = 1 / 2 := by norm_num
    dsimp only
    rw [this]
    field_simp
  rw [he, div_eq_mul_inv]
  ring

end

/-- **C53 (harmonic bonds).**  The loop of `HarmonicBond::randomBondLength` ends with probability
one, and returned lengths up to seven standard deviations beyond the rest length have the density of
the length of a randomly oriented bond with the Boltzmann weight. -/
theorem C53_harmonic_law_partial (s : Bond.Harm) (type : ℤ) {beta : ℝ} (hb : 0 < beta)
    (hk : 0 < s.kappa type) (hl : 0 ≤ s.length type) {ρ : Measure ℝ}
    (hρ : IsLaw ρ ((gaussianReal 0 1).prod unit01) (harmTrial s beta type)) :
    ρ Set.univ = 1 ∧ ∃ c, c ≠ 0 ∧ c ≠ ∞ ∧ ∀ R ≤ harmMax s beta type,
      LengthLaw beta (fun x => s.energy x type) R ρ c := by
  have hlaw : ∀ A, MeasurableSet A → ρ A =
      (harmAcc s beta type)⁻¹ * ∫⁻ x in A ∩ Set.Ici 0, harmDensity s beta type x := by
    intro A hA
    rw [hρ A hA, iSup_retry (fun A hA => harm_hits_measurable hA) hA, harm_measure hb hk hA]
    rfl
  have ha := harmAcc_ne_zero (type := type) hb hk hl
  have hX := harmMax_pos hb hk hl
  have hbk : 0 < beta * s.kappa type := mul_pos hb hk
  refine ⟨?_, harmCst s beta type, ?_, ?_, fun R hR => ?_⟩
  · rw [hlaw _ MeasurableSet.univ, ← harm_measure hb hk MeasurableSet.univ]
    exact ENNReal.inv_mul_cancel ha harmAcc_ne_top
  · refine mul_ne_zero (ENNReal.inv_ne_zero.2 harmAcc_ne_top) ?_
    rw [Ne, ENNReal.ofReal_eq_zero, not_le]
    positivity
  · exact ENNReal.mul_ne_top (ENNReal.inv_ne_top.2 ha) ENNReal.ofReal_ne_top
  · refine Measure.ext fun A hA => ?_
    rw [Measure.restrict_apply hA, hlaw _ (hA.inter measurableSet_Iio), withDensity_apply _ hA,
      Measure.restrict_restrict hA, ← lintegral_const_mul _ harmDensity_measurable]
    have hset : (A ∩ Set.Iio R ∩ Set.Ici 0 : Set ℝ) =ᵐ[volume] (A ∩ Set.Ioo 0 R : Set ℝ) := by
      have h1 : (A ∩ Set.Iio R ∩ Set.Ici 0 : Set ℝ) = A ∩ Set.Ico 0 R := by
        ext x; simp only [Set.mem_inter_iff, Set.mem_Iio, Set.mem_Ici, Set.mem_Ico]; tauto
      rw [h1]
      exact Filter.EventuallyEq.inter (Filter.EventuallyEq.refl _ _) Ioo_ae_eq_Ico.symm
    rw [setLIntegral_congr hset]
    refine setLIntegral_congr_fun (hA.inter measurableSet_Ioo) fun x hx => ?_
    exact harmDensity_eq hb hk hl hx.2.1.le (hx.2.2.le.trans hR)

/-- **C53, violated by long harmonic bonds.**  Lengths more than seven standard deviations beyond
the rest length are returned, with too small a probability. -/
theorem C53_harmonic_tail_violated (s : Bond.Harm) (type : ℤ) {beta : ℝ} (hb : 0 < beta)
    (hk : 0 < s.kappa type) (hl : 0 ≤ s.length type) {ρ : Measure ℝ}
    (hρ : IsLaw ρ ((gaussianReal 0 1).prod unit01) (harmTrial s beta type)) {R : ℝ}
    (hR : harmMax s beta type < R) (c : ℝ≥0∞) : ¬ LengthLaw beta (fun x => s.energy x type) R ρ c := by
  intro hc
  obtain ⟨X, hX⟩ : ∃ X, X = harmMax s beta type := ⟨_, rfl⟩
  have hX0 : 0 < X := by rw [hX]; exact harmMax_pos hb hk hl
  have hbk : 0 < beta * s.kappa type := mul_pos hb hk
  obtain ⟨h1, c0, hc0, hct, hlaw⟩ := C53_harmonic_law_partial s type hb hk hl hρ
  obtain ⟨W, hW⟩ : ∃ W : ℝ → ℝ≥0∞, W = fun x => ENNReal.ofReal (x ^ 2) *
    ENNReal.ofReal (Real.exp (-beta * s.energy (x ^ 2) type)) := ⟨_, rfl⟩
  have hWm : Measurable W := by
    rw [hW]
    unfold Bond.Harm.energy
    fun_prop
  have hint : ∀ {R' : ℝ} {c' : ℝ≥0∞}, LengthLaw beta (fun x => s.energy x type) R' ρ c' →
      ∀ {a b : ℝ}, 0 ≤ a → b ≤ R' → ρ (Set.Ioo a b) = c' * ∫⁻ x in Set.Ioo a b, W x := by
    intro R' c' h a b ha hb'
    have e : ρ (Set.Ioo a b) = (ρ.restrict (Set.Iio R')) (Set.Ioo a b) := by
      rw [Measure.restrict_apply measurableSet_Ioo, Set.inter_eq_left.2]
      exact fun x hx => lt_of_lt_of_le hx.2 hb'
    have hsub : Set.Ioo a b ⊆ Set.Ioo 0 R' := Set.Ioo_subset_Ioo ha hb'
    rw [e, h, withDensity_apply _ measurableSet_Ioo, Measure.restrict_restrict measurableSet_Ioo,
      Set.inter_eq_left.2 hsub,
      ← lintegral_const_mul _ hWm, hW]
  have hWpos : ∫⁻ x in Set.Ioo 0 X, W x ≠ 0 := by
    refine ne_of_gt ?_
    rw [setLIntegral_pos_iff hWm]
    have : Function.support W ∩ Set.Ioo 0 X = Set.Ioo 0 X := by
      refine Set.inter_eq_right.2 fun x hx => ?_
      have hx' : (0 : ℝ) < x := hx.1
      rw [Function.mem_support, hW]
      refine mul_ne_zero ?_ ?_ <;> rw [Ne, ENNReal.ofReal_eq_zero, not_le] <;> positivity
    rw [this]
    simp [hX0]
  have hle : ∀ A, ρ A ≤ 1 := fun A => (measure_mono (Set.subset_univ A)).trans h1.le
  have e1 := hint (hlaw X hX.le) le_rfl le_rfl
  have e2 := hint hc le_rfl (hX ▸ hR.le : X ≤ R)
  have hWtop : ∫⁻ x in Set.Ioo 0 X, W x ≠ ∞ := by
    intro h
    have := hle (Set.Ioo 0 X)
    rw [e1, h, ENNReal.mul_top hc0] at this
    simp at this
  have hcc : c = c0 := (ENNReal.mul_left_inj hWpos hWtop).1 (e2.symm.trans e1)
  subst hcc
  -- the factor found above
  have ha := harmAcc_ne_zero (type := type) hb hk hl
  have hdens : ∀ {a b : ℝ}, 0 ≤ a →
      ρ (Set.Ioo a b) = ∫⁻ x in Set.Ioo a b, (harmAcc s beta type)⁻¹ * harmDensity s beta type x := by
    intro a b ha'
    have hsub : Set.Ioo a b ⊆ Set.Ici 0 := fun x hx => (lt_of_le_of_lt ha' hx.1).le
    rw [hρ _ measurableSet_Ioo, iSup_retry (fun A hA => harm_hits_measurable hA) measurableSet_Ioo,
      harm_measure hb hk measurableSet_Ioo, lintegral_const_mul _ harmDensity_measurable,
      Set.inter_eq_left.2 hsub]
    rfl
  have hcst : c = harmCst s beta type := by
    have e3 : ρ (Set.Ioo 0 X) = harmCst s beta type * ∫⁻ x in Set.Ioo 0 X, W x := by
      rw [hdens le_rfl, ← lintegral_const_mul _ hWm, hW]
      refine setLIntegral_congr_fun measurableSet_Ioo fun x hx => ?_
      exact harmDensity_eq hb hk hl hx.1.le (hX ▸ hx.2.le)
    exact (ENNReal.mul_left_inj hWpos hWtop).1 (e1.symm.trans e3)
  have e4 := hint hc hX0.le (le_refl R)
  rw [hdens hX0.le, ← lintegral_const_mul _ hWm] at e4
  have hlt : ∫⁻ x in Set.Ioo X R, (harmAcc s beta type)⁻¹ * harmDensity s beta type x <
      ∫⁻ x in Set.Ioo X R, c * W x := by
    refine setLIntegral_strict_mono measurableSet_Ioo ?_ (hWm.const_mul c) ?_ ?_
    · rw [Real.volume_Ioo, Ne, ENNReal.ofReal_eq_zero, not_le, hX]
      linarith
    · rw [← hdens hX0.le]
      exact ((hle _).trans_lt ENNReal.one_lt_top).ne
    · refine Filter.Eventually.of_forall fun x hx => ?_
      have hx0 : 0 < x := hX0.trans hx.1
      have hg : 1 < x ^ 2 / X ^ 2 := by
        rw [one_lt_div (by positivity)]
        exact pow_lt_pow_left₀ hx.1 hX0.le (by norm_num)
      rw [hcst]
      unfold harmDensity harmCst
      rw [← hX, min_eq_left hg.le, ENNReal.ofReal_one, mul_one, mul_assoc]
      refine (ENNReal.mul_lt_mul_iff_right (ENNReal.inv_ne_zero.2 harmAcc_ne_top)
        (ENNReal.inv_ne_top.2 ha)).2 ?_
      rw [hW]
      unfold gaussianPDF gaussianPDFReal
      dsimp only
      rw [← ENNReal.ofReal_mul (by positivity), ← ENNReal.ofReal_mul (by positivity),
        Real.coe_toNNReal _ (by positivity)]
      have he : -(x - s.length type) ^ 2 / (2 * (1 / (beta * s.kappa type))) =
          -beta * s.energy (x ^ 2) type := by
        unfold Bond.Harm.energy
        rw [Real.sqrt_sq hx0.le]
        have : (0.5 : ℝ) = 1 / 2 := by norm_num
        dsimp only
        rw [this]
        field_simp
      rw [he, ENNReal.ofReal_lt_ofReal_iff (by positivity)]
      have : (Real.sqrt (2 * Real.pi * (1 / (beta * s.kappa type))))⁻¹ * (X ^ 2)⁻¹ *
          (x ^ 2 * Real.exp (-beta * s.energy (x ^ 2) type)) =
          (Real.sqrt (2 * Real.pi * (1 / (beta * s.kappa type))))⁻¹ *
            Real.exp (-beta * s.energy (x ^ 2) type) * (x ^ 2 / X ^ 2) := by
        rw [div_eq_mul_inv]; ring
      rw [this]
      exact lt_mul_of_one_lt_right (by positivity) hg
  exact absurd e4 hlt.ne

/-- The distribution exists. -/
theorem law_exists {D : Type} [MeasurableSpace D] {μ : Measure D} [IsProbabilityMeasure μ]
    {trial : D → Option ℝ} (hm : ∀ A, MeasurableSet A → MeasurableSet (hits trial A)) :
    ∃ ρ : Measure ℝ, IsLaw ρ μ trial := by
  obtain ⟨f, hf⟩ : ∃ f : D → ℝ, f = fun d => (trial d).getD 0 := ⟨_, rfl⟩
  have hS := hm _ MeasurableSet.univ
  have hpre : ∀ A, (f ⁻¹' A) ∩ hits trial Set.univ = hits trial A := by
    intro A
    ext d
    rw [hf]
    cases hd : trial d <;> simp [hits, hd]
  have hmf : AEMeasurable f (μ.restrict (hits trial Set.univ)) := by
    classical
    refine ⟨(hits trial Set.univ).indicator f, ?_, ?_⟩
    · intro A hA
      by_cases h0 : (0 : ℝ) ∈ A
      · have : (hits trial Set.univ).indicator f ⁻¹' A = hits trial A ∪ (hits trial Set.univ)ᶜ := by
          ext d
          simp only [Set.mem_preimage, Set.mem_union, Set.mem_compl_iff, ← hpre A, Set.mem_inter_iff]
          by_cases hd : d ∈ hits trial Set.univ
          · rw [Set.indicator_of_mem hd]; simp [hd]
          · rw [Set.indicator_of_notMem hd]; simp [hd, h0]
        rw [this]
        exact (hm A hA).union hS.compl
      · have : (hits trial Set.univ).indicator f ⁻¹' A = hits trial A := by
          ext d
          simp only [Set.mem_preimage, ← hpre A, Set.mem_inter_iff]
          by_cases hd : d ∈ hits trial Set.univ
          · rw [Set.indicator_of_mem hd]; simp [hd]
          · rw [Set.indicator_of_notMem hd]; simp [hd, h0]
        rw [this]
        exact hm A hA
    · rw [Filter.EventuallyEq, ae_restrict_iff' hS]
      refine Filter.Eventually.of_forall fun d hd => (Set.indicator_of_mem hd f).symm
  refine ⟨(μ (hits trial Set.univ))⁻¹ • (μ.restrict (hits trial Set.univ)).map f, fun A hA => ?_⟩
  rw [iSup_retry hm hA, Measure.smul_apply, smul_eq_mul, Measure.map_apply_of_aemeasurable hmf hA]
  congr 1
  rw [Measure.restrict_apply' hS, hpre]

example : ∃ ρ, IsLaw ρ ((gaussianReal 0 1).prod unit01) (harmTrial ⟨fun _ => 100, fun _ => 1, 1⟩ 2 0) :=
  law_exists fun _ hA => harm_hits_measurable hA

/-! ### Harmonic bonds of zero rest length -/

/-- `HarmonicL0Bond::randomBondLength`, HarmonicL0Bond.cpp:99-103, as a loop that ends after one
trial. -/
noncomputable def harm0Trial (s : Bond.Harm0) (beta : ℝ) (type : ℤ) (g : Vec) : Option ℝ :=
  some (Real.sqrt (g 0 * g 0 + g 1 * g 1 + g 2 * g 2) / Real.sqrt (beta * s.kappa type))

/-- Three standard normal deviates. -/
noncomputable def gauss3 : Measure Vec := Measure.pi fun _ => gaussianReal 0 1

instance : IsProbabilityMeasure gauss3 := by unfold gauss3; infer_instance

/-- Three deviates, divided by the square root of `k`, in polar coordinates. -/
theorem gauss3_polar {k : ℝ} (hk : 0 < k) : ∃ Z : ℝ≥0∞, Z ≠ 0 ∧ Z ≠ ∞ ∧ ∀ f : ℝ → ℝ≥0∞, Measurable f →
    ∫⁻ g, f (Real.sqrt (normSq g) / Real.sqrt k) ∂gauss3 =
      Z * ∫⁻ ℓ in Set.Ioi (0 : ℝ), ENNReal.ofReal (ℓ ^ 2) * (ENNReal.ofReal (Real.exp (-(k * ℓ ^ 2 / 2))) * f ℓ) := by
  obtain ⟨Z, hZ⟩ := Integrate.deviates_lintegral (ι := Unit) (m := fun _ => k) (fun _ => hk) (T := 1) one_pos
  have hcong : ∀ f : ℝ → ℝ≥0∞, Measurable f → ∫⁻ g, f (Real.sqrt (normSq g) / Real.sqrt k) ∂gauss3 =
      Z * area Set.univ * ∫⁻ ℓ in Set.Ioi (0 : ℝ),
        ENNReal.ofReal (ℓ ^ 2) * (ENNReal.ofReal (Real.exp (-(k * ℓ ^ 2 / 2))) * f ℓ) := by
    intro f hf
    have hn : Measurable fun v : Vec => f (Real.sqrt (normSq v)) :=
      hf.comp (Real.continuous_sqrt.measurable.comp normSq_measurable)
    have h1 := hZ (fun v => f (Real.sqrt (normSq (v ())))) (hn.comp (measurable_pi_apply ()))
    have hm1 : MeasurePreserving (MeasurableEquiv.funUnique Unit Vec) (Integrate.deviates Unit) gauss3 :=
      measurePreserving_funUnique gauss3 Unit
    have hm2 := volume_preserving_funUnique Unit Vec
    have h2 : ∀ gs : Unit → Vec, f (Real.sqrt (normSq (Integrate.velocities (fun _ => k) 1 gs ()))) =
        f (Real.sqrt (normSq (gs ())) / Real.sqrt k) := by
      intro gs
      have : Integrate.velocities (fun _ : Unit => k) 1 gs () = Real.sqrt (1 / k) • gs () := rfl
      rw [this, normSq_smul, Real.sq_sqrt (by positivity), one_div, Real.sqrt_mul (by positivity),
        Real.sqrt_inv, mul_comm, div_eq_mul_inv]
    simp only [h2] at h1
    have h3 : ∫⁻ gs, f (Real.sqrt (normSq (gs ())) / Real.sqrt k) ∂(Integrate.deviates Unit) =
        ∫⁻ g, f (Real.sqrt (normSq g) / Real.sqrt k) ∂gauss3 :=
      hm1.lintegral_comp (f := fun g => f (Real.sqrt (normSq g) / Real.sqrt k))
        (hf.comp ((Real.continuous_sqrt.measurable.comp normSq_measurable).div_const _))
    have hmE : Measurable fun v : Vec =>
        ENNReal.ofReal (Real.exp (-(k * normSq v / 2))) * f (Real.sqrt (normSq v)) := by
      refine Measurable.mul ?_ hn
      exact ENNReal.measurable_ofReal.comp (Real.measurable_exp.comp
        ((normSq_measurable.const_mul k).div_const 2).neg)
    have h4 : ∫⁻ v : Unit → Vec, ENNReal.ofReal (Real.exp (-Integrate.kinetic (fun _ => k) v / 1)) *
        f (Real.sqrt (normSq (v ()))) = ∫⁻ v : Vec, ENNReal.ofReal (Real.exp (-(k * normSq v / 2))) *
          f (Real.sqrt (normSq v)) := by
      rw [← hm2.lintegral_comp hmE]
      refine lintegral_congr fun v => ?_
      congr 3
      have : Integrate.kinetic (fun _ : Unit => k) v = k * normSq (v ()) / 2 := by
        unfold Integrate.kinetic Integrate.sq normSq
        rw [Finset.univ_unique, Finset.sum_singleton]
        change k * (v () 0 * v () 0 + v () 1 * v () 1 + v () 2 * v () 2) / 2 = _
        ring
      rw [this, div_one]
      rfl
    rw [← h3, h1, h4, polar hmE, mul_assoc]
    congr 1
    rw [← lintegral_const_mul']
    · refine setLIntegral_congr_fun measurableSet_Ioi fun ℓ hℓ => ?_
      have hℓ' : (0 : ℝ) < ℓ := hℓ
      have hin : ∫⁻ u, ENNReal.ofReal (Real.exp (-(k * normSq (ℓ • u) / 2))) *
          f (Real.sqrt (normSq (ℓ • u))) ∂area =
          ENNReal.ofReal (Real.exp (-(k * ℓ ^ 2 / 2))) * f ℓ * area Set.univ := by
        rw [← lintegral_const]
        refine lintegral_congr_ae ?_
        filter_upwards [area_unit] with u hu
        rw [normSq_smul, hu, mul_one, Real.sqrt_sq hℓ'.le]
      rw [hin]
      ring
    · exact area_ne_top
  have h1 := hcong (fun _ => 1) measurable_const
  simp only [lintegral_const, measure_univ, mul_one] at h1
  refine ⟨Z * area Set.univ, ?_, ?_, hcong⟩
  · intro h0
    rw [h0, zero_mul] at h1
    exact one_ne_zero h1
  · intro h0
    rw [h0] at h1
    rcases eq_or_ne (∫⁻ ℓ in Set.Ioi (0 : ℝ), ENNReal.ofReal (ℓ ^ 2) *
      ENNReal.ofReal (Real.exp (-(k * ℓ ^ 2 / 2)))) 0 with h | h
    · rw [h, mul_zero] at h1
      exact one_ne_zero h1
    · rw [ENNReal.top_mul h] at h1
      exact ENNReal.one_ne_top h1

/-- **C53 (harmonic bonds of zero rest length).**  Returned lengths have the density of the length
of a randomly oriented bond with the Boltzmann weight. -/
theorem C53_harmonic0_law (s : Bond.Harm0) (type : ℤ) {beta : ℝ} (hb : 0 < beta)
    (hk : 0 < s.kappa type) {ρ : Measure ℝ} (hρ : IsLaw ρ gauss3 (harm0Trial s beta type)) :
    ρ Set.univ = 1 ∧ ∃ c, c ≠ 0 ∧ c ≠ ∞ ∧ ∀ R, LengthLaw beta (fun x => s.energy x type) R ρ c := by
  have hbk : 0 < beta * s.kappa type := mul_pos hb hk
  have hhits : ∀ A, hits (harm0Trial s beta type) A =
      (fun g : Vec => Real.sqrt (normSq g) / Real.sqrt (beta * s.kappa type)) ⁻¹' A := by
    intro A
    ext g
    simp only [hits, harm0Trial, Set.mem_ofPred_eq, Set.mem_preimage, normSq, sq]
    constructor
    · rintro ⟨x, hx, h⟩
      rw [Option.some.inj h]
      exact hx
    · exact fun h => ⟨_, h, rfl⟩
  have hmeas : Measurable fun g : Vec => Real.sqrt (normSq g) / Real.sqrt (beta * s.kappa type) :=
    (Real.continuous_sqrt.measurable.comp normSq_measurable).div_const _
  have hm : ∀ A, MeasurableSet A → MeasurableSet (hits (harm0Trial s beta type) A) := fun A hA => by
    rw [hhits]; exact hmeas hA
  have hone : gauss3 (hits (harm0Trial s beta type) Set.univ) = 1 := by
    rw [hhits, Set.preimage_univ, measure_univ]
  obtain ⟨Z, hZ0, hZt, hZ⟩ := gauss3_polar hbk
  have hlaw : ∀ A, MeasurableSet A → ρ A = gauss3 (hits (harm0Trial s beta type) A) := by
    intro A hA
    rw [hρ A hA, iSup_retry hm hA, hone, inv_one, one_mul]
  refine ⟨by rw [hlaw _ MeasurableSet.univ, hone], Z, hZ0, hZt, fun R => ?_⟩
  refine Measure.ext fun A hA => ?_
  have hAR : MeasurableSet (A ∩ Set.Iio R) := hA.inter measurableSet_Iio
  rw [Measure.restrict_apply hA, hlaw _ hAR, withDensity_apply _ hA, Measure.restrict_restrict hA, hhits,
    ← lintegral_indicator_one (hmeas hAR)]
  have h1 := hZ ((A ∩ Set.Iio R).indicator 1) (measurable_one.indicator hAR)
  have h2 : ∀ g : Vec, ((fun g : Vec => Real.sqrt (normSq g) / Real.sqrt (beta * s.kappa type)) ⁻¹'
      (A ∩ Set.Iio R)).indicator (1 : Vec → ℝ≥0∞) g = (A ∩ Set.Iio R).indicator 1
        (Real.sqrt (normSq g) / Real.sqrt (beta * s.kappa type)) := fun g => rfl
  simp only [h2]
  have hset : A ∩ Set.Ioo 0 R = (A ∩ Set.Iio R) ∩ Set.Ioi 0 := by
    ext x; simp only [Set.mem_inter_iff, Set.mem_Ioo, Set.mem_Iio, Set.mem_Ioi]; tauto
  rw [h1, hset, ← Measure.restrict_restrict hAR, ← lintegral_indicator hAR,
    ← lintegral_const_mul' _ _ hZt]
  refine lintegral_congr fun x => ?_
  by_cases hx : x ∈ A ∩ Set.Iio R
  · rw [Set.indicator_of_mem hx, Set.indicator_of_mem hx, Pi.one_apply, mul_one]
    congr 4
    unfold Bond.Harm0.energy
    have : (0.5 : ℝ) = 1 / 2 := by norm_num
    rw [this]
    ring
  · rw [Set.indicator_of_notMem hx, Set.indicator_of_notMem hx, mul_zero, mul_zero, mul_zero]

example : ∃ ρ, IsLaw ρ gauss3 (harm0Trial ⟨fun _ => 100, 1⟩ 2 0) := law_exists fun A hA => by
  have : hits (harm0Trial ⟨fun _ => 100, 1⟩ 2 0) A =
      (fun g : Vec => Real.sqrt (g 0 * g 0 + g 1 * g 1 + g 2 * g 2) / Real.sqrt (2 * 100)) ⁻¹' A := by
    ext g
    simp [hits, harm0Trial]
  rw [this]
  exact (show Measurable fun g : Vec =>
    Real.sqrt (g 0 * g 0 + g 1 * g 1 + g 2 * g 2) / Real.sqrt (2 * 100) by fun_prop) hA

/-! ### FENE bonds -/

/-- A trial in `FeneBond::randomBondLength`, FeneBond.cpp:170-186. -/
noncomputable def feneTrial (s : Bond.Fene) (beta : ℝ) (type : ℤ) (d : Vec × ℝ) : Option ℝ :=
  let sigSq := 1.0 / (beta * s.kappa type)
  let rSq := Real.sqrt (d.1 0 * d.1 0 + d.1 1 * d.1 1 + d.1 2 * d.1 2) * sigSq
  by classical exact
    if rSq ≥ s.r0Sq type then none
    else
      let eHarm := 0.5 * s.kappa type * rSq
      let eFene := s.energy rSq type
      let ratio := Real.exp (-beta * (eFene - eHarm))
      if d.2 < ratio then some (Real.sqrt rSq) else none

section

variable {s : Bond.Fene} {beta : ℝ} {type : ℤ}

/-- The squared length of a trial, as computed. -/
noncomputable def feneSq (s : Bond.Fene) (beta : ℝ) (type : ℤ) (g : Vec) : ℝ :=
  Real.sqrt (normSq g) * (1 / (beta * s.kappa type))

theorem fene_hits (A : Set ℝ) : hits (feneTrial s beta type) A =
    {d | Real.sqrt (feneSq s beta type d.1) ∈ A ∧ feneSq s beta type d.1 < s.r0Sq type ∧
      d.2 < Real.exp (-beta * (s.energy (feneSq s beta type d.1) type -
        0.5 * s.kappa type * feneSq s beta type d.1))} := by
  classical
  have n1 : (1.0 : ℝ) = 1 := by norm_num
  ext d
  simp only [hits, feneTrial, n1, Set.mem_ofPred_eq]
  have e : Real.sqrt (d.1 0 * d.1 0 + d.1 1 * d.1 1 + d.1 2 * d.1 2) * (1 / (beta * s.kappa type)) =
      feneSq s beta type d.1 := by
    unfold feneSq normSq
    simp only [sq]
  rw [e]
  constructor
  · rintro ⟨x, hx, h⟩
    split at h
    · cases h
    · next h0 =>
      split at h
      · next h1 =>
        cases h
        exact ⟨hx, not_le.1 h0, h1⟩
      · cases h
  · rintro ⟨h1, h2, h3⟩
    exact ⟨_, h1, by rw [if_neg (not_le.2 h2), if_pos h3]⟩

theorem feneSq_measurable : Measurable (feneSq s beta type) := by
  unfold feneSq
  exact (Real.continuous_sqrt.measurable.comp normSq_measurable).mul_const _

theorem feneEnergy_measurable : Measurable fun x => s.energy x type := by
  unfold Bond.Fene.energy
  refine Measurable.ite (measurableSet_lt measurable_id measurable_const) ?_ ?_
  · fun_prop
  · fun_prop

theorem fene_hits_measurable {A : Set ℝ} (hA : MeasurableSet A) :
    MeasurableSet (hits (feneTrial s beta type) A) := by
  rw [fene_hits]
  have h1 : Measurable fun d : Vec × ℝ => feneSq s beta type d.1 := feneSq_measurable.comp measurable_fst
  have h2 : Measurable fun d : Vec × ℝ => s.energy (feneSq s beta type d.1) type :=
    feneEnergy_measurable.comp h1
  refine MeasurableSet.inter (s₁ := {d : Vec × ℝ | Real.sqrt (feneSq s beta type d.1) ∈ A})
    ((Real.continuous_sqrt.measurable.comp h1) hA) (MeasurableSet.inter
      (s₁ := {d : Vec × ℝ | feneSq s beta type d.1 < s.r0Sq type}) (measurableSet_lt h1 measurable_const)
      (measurableSet_lt measurable_snd ?_))
  exact Real.measurable_exp.comp ((h2.sub (h1.const_mul _)).const_mul _)

theorem gauss3_cube {δ : ℝ} (hδ : 0 ≤ δ) :
    gauss3 (Set.pi Set.univ fun _ => Set.Ioo (-δ) δ) ≤ ENNReal.ofReal ((2 * δ) ^ 3) := by
  unfold gauss3
  rw [Measure.pi_pi]
  have h : gaussianReal 0 1 (Set.Ioo (-δ) δ) ≤ ENNReal.ofReal (2 * δ) := by
    rw [gaussianReal_of_var_ne_zero _ one_ne_zero, withDensity_apply _ measurableSet_Ioo]
    calc ∫⁻ x in Set.Ioo (-δ) δ, gaussianPDF 0 1 x ≤ ∫⁻ _x in Set.Ioo (-δ) δ, 1 := by
          refine lintegral_mono fun x => ?_
          unfold gaussianPDF gaussianPDFReal
          rw [← ENNReal.ofReal_one]
          refine ENNReal.ofReal_le_ofReal ?_
          have h1 : (Real.sqrt (2 * Real.pi * ((1 : NNReal) : ℝ)))⁻¹ ≤ 1 := by
            refine inv_le_one_of_one_le₀ ?_
            rw [Real.one_le_sqrt]
            have := Real.pi_gt_three
            simp only [NNReal.coe_one, mul_one]
            linarith
          have h2 : Real.exp (-(x - 0) ^ 2 / (2 * ((1 : NNReal) : ℝ))) ≤ 1 := by
            rw [Real.exp_le_one_iff]
            have : 0 ≤ (x - 0) ^ 2 := sq_nonneg _
            simp only [NNReal.coe_one, mul_one]
            linarith
          exact mul_le_one₀ h1 (Real.exp_pos _).le h2
      _ = ENNReal.ofReal (2 * δ) := by
          rw [setLIntegral_const, one_mul, Real.volume_Ioo]
          congr 1
          ring
  calc ∏ _i : Fin 3, gaussianReal 0 1 (Set.Ioo (-δ) δ) ≤ ∏ _i : Fin 3, ENNReal.ofReal (2 * δ) :=
        Finset.prod_le_prod' fun _ _ => h
    _ = ENNReal.ofReal ((2 * δ) ^ 3) := by
        rw [Finset.prod_const, Finset.card_univ, Fintype.card_fin, ENNReal.ofReal_pow (by linarith)]

/-- Short lengths are rare: of the order of the sixth power. -/
theorem fene_short (hb : 0 < beta) (hk : 0 < s.kappa type) {ε : ℝ} (hε : 0 < ε) :
    (gauss3.prod unit01) (hits (feneTrial s beta type) (Set.Iio ε)) ≤
      ENNReal.ofReal ((2 * (beta * s.kappa type * ε ^ 2)) ^ 3) := by
  have hbk : 0 < beta * s.kappa type := mul_pos hb hk
  refine le_trans ?_ (gauss3_cube (by positivity))
  have hsub : hits (feneTrial s beta type) (Set.Iio ε) ⊆
      (Set.pi Set.univ fun _ => Set.Ioo (-(beta * s.kappa type * ε ^ 2)) (beta * s.kappa type * ε ^ 2)) ×ˢ
        Set.univ := by
    intro d hd
    rw [fene_hits] at hd
    refine ⟨fun i _ => ?_, Set.mem_univ _⟩
    have h1 : Real.sqrt (feneSq s beta type d.1) < ε := hd.1
    rw [Real.sqrt_lt' hε] at h1
    unfold feneSq at h1
    rw [mul_one_div, div_lt_iff₀ hbk] at h1
    have h2 : |d.1 i| ≤ Real.sqrt (normSq d.1) := by
      rw [← Real.sqrt_sq_eq_abs]
      refine Real.sqrt_le_sqrt ?_
      unfold normSq
      fin_cases i
      · simp only [Fin.zero_eta]; nlinarith [sq_nonneg (d.1 1), sq_nonneg (d.1 2)]
      · simp only [Fin.mk_one]; nlinarith [sq_nonneg (d.1 0), sq_nonneg (d.1 2)]
      · simp only [Fin.reduceFinMk]; nlinarith [sq_nonneg (d.1 0), sq_nonneg (d.1 1)]
    have h3 := abs_lt.1 (lt_of_le_of_lt h2 h1)
    rw [mul_comm (ε ^ 2)] at h3
    exact h3
  refine (measure_mono hsub).trans ?_
  rw [Measure.prod_prod, measure_univ, mul_one]

end

/-- **C53, violated by FENE bonds.**  For no parameters are the lengths returned by
`FeneBond::randomBondLength` distributed as required (the length of a random vector is used as its
square), not even for short bonds. -/
theorem C53_fene_violated (s : Bond.Fene) (type : ℤ) {beta : ℝ} (hb : 0 < beta)
    (hk : 0 < s.kappa type) (h0 : 0 < s.r0 type) (hf : 0 < s.forceCutoff) (hd : s.Derived type)
    {ρ : Measure ℝ} (hρ : IsLaw ρ (gauss3.prod unit01) (feneTrial s beta type)) {R : ℝ} (hR : 0 < R)
    {c : ℝ≥0∞} (hc : c ≠ 0) : ¬ LengthLaw beta (fun x => s.energy x type) R ρ c := by
  intro hlaw
  have hbk : 0 < beta * s.kappa type := mul_pos hb hk
  have hrl : 0 < s.rlSq type := by
    rw [hd.rlSq, hd.rl]
    have := (Bond.crossover_spec hk h0 hf).1
    positivity
  obtain ⟨a, ha⟩ : ∃ a, a = (gauss3.prod unit01) (hits (feneTrial s beta type) Set.univ) := ⟨_, rfl⟩
  -- bounds for short lengths
  have hup : ∀ ε, 0 < ε → ρ (Set.Iio ε) ≤ a⁻¹ * ENNReal.ofReal ((2 * (beta * s.kappa type * ε ^ 2)) ^ 3) := by
    intro ε hε
    rw [hρ _ measurableSet_Iio, iSup_retry (fun A hA => fene_hits_measurable hA) measurableSet_Iio, ← ha]
    exact mul_le_mul' le_rfl (fene_short hb hk hε)
  obtain ⟨M, hM⟩ : ∃ M, M = Real.exp (-beta * (-s.ce type * Real.log 2)) := ⟨_, rfl⟩
  have hM0 : 0 < M := by rw [hM]; exact Real.exp_pos _
  have hlow : ∀ ε, 0 < ε → ε ≤ R → ε ^ 2 ≤ s.rlSq type → ε ^ 2 ≤ s.r0 type ^ 2 / 2 →
      c * ENNReal.ofReal (ε ^ 3 / 8 * M) ≤ ρ (Set.Iio ε) := by
    intro ε hε h1 h2 h3
    have e1 : ρ (Set.Iio ε) = (ρ.restrict (Set.Iio R)) (Set.Iio ε) := by
      rw [Measure.restrict_apply measurableSet_Iio, Set.Iio_inter_Iio, min_eq_left h1]
    have hlaw' : ρ.restrict (Set.Iio R) = (volume.restrict (Set.Ioo 0 R)).withDensity fun ℓ =>
      c * (ENNReal.ofReal (ℓ ^ 2) * ENNReal.ofReal (Real.exp (-beta * s.energy (ℓ ^ 2) type))) := hlaw
    rw [e1, hlaw', withDensity_apply _ measurableSet_Iio, Measure.restrict_restrict measurableSet_Iio]
    have e2 : Set.Ioo (ε / 2) ε ⊆ Set.Iio ε ∩ Set.Ioo 0 R := by
      intro x hx
      exact ⟨hx.2, by linarith [hx.1], by linarith [hx.2]⟩
    refine le_trans ?_ (lintegral_mono_set e2)
    calc c * ENNReal.ofReal (ε ^ 3 / 8 * M) =
        ∫⁻ _x in Set.Ioo (ε / 2) ε, c * ENNReal.ofReal (ε ^ 2 / 4 * M) := by
          rw [setLIntegral_const, Real.volume_Ioo, mul_assoc, ← ENNReal.ofReal_mul (by positivity)]
          congr 2
          ring
      _ ≤ _ := by
          refine setLIntegral_mono' measurableSet_Ioo fun x hx => mul_le_mul' le_rfl ?_
          rw [← ENNReal.ofReal_mul (by positivity)]
          refine ENNReal.ofReal_le_ofReal (mul_le_mul ?_ ?_ hM0.le (sq_nonneg _))
          · nlinarith [hx.1]
          · rw [hM]
            refine Real.exp_le_exp.2 ?_
            have hx2 : x ^ 2 < ε ^ 2 := by nlinarith [hx.1, hx.2]
            have hen : s.energy (x ^ 2) type ≤ -s.ce type * Real.log 2 := by
              unfold Bond.Fene.energy
              rw [if_pos (by linarith)]
              dsimp only
              have hg : (1 / 2 : ℝ) ≤ 1 - x ^ 2 * s.r0SqInv type := by
                rw [hd.r0SqInv, mul_one_div]
                have : x ^ 2 / s.r0 type ^ 2 ≤ 1 / 2 := by
                  rw [div_le_iff₀ (by positivity)]; linarith
                linarith
              have hlog := Real.log_le_log (by norm_num) hg
              rw [one_div, Real.log_inv] at hlog
              have hce : s.ce type ≤ 0 := by rw [hd.ce]; have : 0 ≤ s.kappa type * s.r0 type ^ 2 / 2 := by positivity
                                             linarith
              nlinarith
            nlinarith
  have hr0 : 0 < s.r0 type ^ 2 / 2 := by positivity
  obtain ⟨e0, he0, hsmall⟩ : ∃ e0 : ℝ, 0 < e0 ∧ ∀ ε, 0 < ε → ε ≤ e0 → ε ≤ R ∧ ε ^ 2 ≤ s.rlSq type ∧
      ε ^ 2 ≤ s.r0 type ^ 2 / 2 ∧ ε ≤ 1 := by
    refine ⟨min (min R 1) (min (s.rlSq type) (s.r0 type ^ 2 / 2)), by positivity, fun ε h1 h2 => ?_⟩
    have h3 := h2.trans (min_le_left _ _)
    have h4 := h2.trans (min_le_right _ _)
    have h5 : ε ≤ 1 := h3.trans (min_le_right _ _)
    have h6 : ε ^ 2 ≤ ε := by nlinarith
    exact ⟨h3.trans (min_le_left _ _), h6.trans (h4.trans (min_le_left _ _)),
      h6.trans (h4.trans (min_le_right _ _)), h5⟩
  rcases eq_or_ne a 0 with h | h
  · -- no trial is accepted
    obtain ⟨s1, s2, s3, -⟩ := hsmall e0 he0 le_rfl
    have h1 := hlow e0 he0 s1 s2 s3
    rw [hρ _ measurableSet_Iio, iSup_retry (fun A hA => fene_hits_measurable hA) measurableSet_Iio,
      measure_mono_null (fun d (hd : d ∈ hits (feneTrial s beta type) (Set.Iio e0)) =>
        (⟨hd.choose, Set.mem_univ _, hd.choose_spec.2⟩ : d ∈ hits (feneTrial s beta type) Set.univ))
        (ha.symm.trans h), mul_zero, nonpos_iff_eq_zero, mul_eq_zero, ENNReal.ofReal_eq_zero] at h1
    rcases h1 with h1 | h1
    · exact hc h1
    · have : 0 < e0 ^ 3 / 8 * M := by positivity
      linarith
  · obtain ⟨K, hK0, hK⟩ : ∃ K : ℝ, 0 ≤ K ∧ a⁻¹ = ENNReal.ofReal K :=
      ⟨a⁻¹.toReal, ENNReal.toReal_nonneg, (ENNReal.ofReal_toReal (ENNReal.inv_ne_top.2 h)).symm⟩
    obtain ⟨C, hC0, hC⟩ : ∃ C : ℝ, 0 < C ∧ ENNReal.ofReal C ≤ c := by
      have hmin : min c 1 ≠ ∞ := (lt_of_le_of_lt (min_le_right _ _) ENNReal.one_lt_top).ne
      refine ⟨(min c 1).toReal, ENNReal.toReal_pos ?_ hmin, ?_⟩
      · exact (lt_min (pos_iff_ne_zero.2 hc) one_pos).ne'
      · rw [ENNReal.ofReal_toReal hmin]; exact min_le_left _ _
    have key : ∀ ε, 0 < ε → ε ≤ e0 → C * (ε ^ 3 / 8 * M) ≤ K * (2 * (beta * s.kappa type * ε ^ 2)) ^ 3 := by
      intro ε h1 h2
      obtain ⟨s1, s2, s3, -⟩ := hsmall ε h1 h2
      have h3 := (hlow ε h1 s1 s2 s3).trans (hup ε h1)
      have h4 := (mul_le_mul' hC (le_refl (ENNReal.ofReal (ε ^ 3 / 8 * M)))).trans h3
      rw [hK, ← ENNReal.ofReal_mul hC0.le, ← ENNReal.ofReal_mul hK0] at h4
      exact (ENNReal.ofReal_le_ofReal_iff (by positivity)).1 h4
    obtain ⟨X, hX⟩ : ∃ X, X = C * M / 8 := ⟨_, rfl⟩
    obtain ⟨Y, hY⟩ : ∃ Y, Y = K * 8 * (beta * s.kappa type) ^ 3 := ⟨_, rfl⟩
    have hX0 : 0 < X := by rw [hX]; positivity
    have hY0 : 0 ≤ Y := by rw [hY]; positivity
    obtain ⟨ε, hεd⟩ : ∃ ε, ε = min e0 (X / (Y + 1)) := ⟨_, rfl⟩
    have hε0 : 0 < ε := by rw [hεd]; positivity
    have hε1 : ε ≤ e0 := by rw [hεd]; exact min_le_left _ _
    have hε2 : ε ≤ X / (Y + 1) := by rw [hεd]; exact min_le_right _ _
    obtain ⟨-, -, -, hε3⟩ := hsmall ε hε0 hε1
    have h5 := key ε hε0 hε1
    have e5 : C * (ε ^ 3 / 8 * M) = X * ε ^ 3 := by rw [hX]; ring
    have e6 : K * (2 * (beta * s.kappa type * ε ^ 2)) ^ 3 = Y * ε ^ 3 * ε ^ 3 := by rw [hY]; ring
    rw [e5, e6] at h5
    have h6 : X ≤ Y * ε ^ 3 := le_of_mul_le_mul_right h5 (by positivity)
    have h7 : ε ^ 3 ≤ ε := by
      have : ε ^ 2 ≤ 1 := by nlinarith
      nlinarith
    have h8 : ε * (Y + 1) ≤ X := by rwa [le_div_iff₀ (by positivity)] at hε2
    nlinarith

end Verif.Cfb
