/-
Random bonds: a random length and a random direction, reduced to the primary cell, and the
resulting distribution of positions.
-/
import Verif.Cfb.Flow
import Verif.McMoves.Measure
import Mathlib.MeasureTheory.Constructions.HaarToSphere
import Mathlib.MeasureTheory.Measure.Haar.InnerProductSpace
import Mathlib.MeasureTheory.Group.FundamentalDomain
import Mathlib.MeasureTheory.Function.Floor
import Mathlib.MeasureTheory.Function.SpecialFunctions.Basic
import Mathlib.MeasureTheory.Constructions.Polish.Basic

set_option autoImplicit false

namespace Verif.Cfb

open Verif.Boundary Verif.McMoves MeasureTheory
open scoped ENNReal

/-- Space with the Euclidean norm. -/
abbrev Space : Type := EuclideanSpace ℝ (Fin 3)

/-- Vector of a point of the unit sphere. -/
def ofSphere (u : Metric.sphere (0 : Space) 1) : Vec := WithLp.ofLp u.1

theorem ofSphere_measurable : Measurable ofSphere :=
  (PiLp.volume_preserving_ofLp (Fin 3)).measurable.comp measurable_subtype_coe

/-- Area on the unit sphere. -/
noncomputable def area : Measure Vec := (volume : Measure Space).toSphere.map ofSphere

/-- The law of `Random::unitVector`: uniform on the unit sphere. -/
noncomputable def direction : Measure Vec := (area Set.univ)⁻¹ • area

theorem area_univ : area Set.univ = (volume : Measure Space).toSphere Set.univ := by
  unfold area
  rw [Measure.map_apply ofSphere_measurable MeasurableSet.univ, Set.preimage_univ]

theorem area_ne_zero : area Set.univ ≠ 0 := by
  rw [area_univ]
  exact fun h => Measure.toSphere_ne_zero (volume : Measure Space) (Measure.measure_univ_eq_zero.1 h)

theorem area_ne_top : area Set.univ ≠ ∞ := by
  rw [area_univ]
  exact measure_ne_top _ _

instance : IsFiniteMeasure area := ⟨lt_top_iff_ne_top.2 area_ne_top⟩

instance : IsProbabilityMeasure direction := ⟨by
  unfold direction
  rw [Measure.smul_apply, smul_eq_mul, ENNReal.inv_mul_cancel area_ne_zero area_ne_top]⟩

theorem normSq_ofLp (x : Space) : normSq (WithLp.ofLp x) = ‖x‖ ^ 2 := by
  rw [EuclideanSpace.norm_sq_eq]
  unfold normSq
  rw [Fin.sum_univ_three]
  simp [sq_abs]

theorem area_unit : ∀ᵐ u ∂area, normSq u = 1 := by
  have hm : MeasurableSet {u : Vec | normSq u = 1} := by
    have : Measurable fun u : Vec => normSq u := by
      unfold normSq
      fun_prop
    exact this (measurableSet_singleton 1)
  unfold area
  rw [ae_map_iff ofSphere_measurable.aemeasurable hm]
  refine Filter.Eventually.of_forall fun u => ?_
  unfold ofSphere
  rw [normSq_ofLp]
  have : ‖u.1‖ = 1 := by simp
  rw [this, one_pow]

/-- Directions have unit length. -/
theorem direction_unit : ∀ᵐ u ∂direction, normSq u = 1 := by
  unfold direction
  exact Measure.ae_smul_measure area_unit _

/-- Polar coordinates. -/
theorem polar {f : Vec → ℝ≥0∞} (hf : Measurable f) :
    ∫⁻ v, f v = ∫⁻ ℓ in Set.Ioi (0 : ℝ), ENNReal.ofReal (ℓ ^ 2) * ∫⁻ u, f (ℓ • u) ∂area := by
  have hmp := PiLp.volume_preserving_ofLp (Fin 3)
  rw [← hmp.lintegral_comp hf]
  have hs := (volume : Measure Space).measurePreserving_homeomorphUnitSphereProd
  have h0 : ∫⁻ x : Space, f (WithLp.ofLp x) = ∫⁻ x in ({0}ᶜ : Set Space), f (WithLp.ofLp x) := by
    refine (setLIntegral_univ _).symm.trans ?_
    refine setLIntegral_congr ?_
    have : ({0}ᶜ : Set Space) =ᵐ[volume] Set.univ := by
      rw [ae_eq_univ, compl_compl]
      exact measure_singleton _
    exact this.symm
  have hfm : Measurable fun x : Space => f (WithLp.ofLp x) := hf.comp hmp.measurable
  rw [h0, ← lintegral_subtype_comap (measurableSet_singleton (0 : Space)).compl]
  have h1 : Measurable fun ur : Metric.sphere (0 : Space) 1 × Set.Ioi (0 : ℝ) =>
      f (ur.2.1 • ofSphere ur.1) := hf.comp ((measurable_subtype_coe.comp measurable_snd).smul
        (ofSphere_measurable.comp measurable_fst))
  have h2 := hs.lintegral_comp h1
  have h3 : ∀ x : ({0}ᶜ : Set Space), f ((homeomorphUnitSphereProd Space x).2.1 •
      ofSphere (homeomorphUnitSphereProd Space x).1) = f (WithLp.ofLp x.1) := by
    intro x
    congr 1
    have hx : ‖x.1‖ ≠ 0 := norm_ne_zero_iff.2 x.2
    unfold ofSphere
    rw [← WithLp.ofLp_smul]
    congr 1
    simp [smul_smul, hx]
  simp only [h3] at h2
  rw [h2, lintegral_prod_symm _ h1.aemeasurable]
  have hd : Module.finrank ℝ Space - 1 = 2 := by simp
  rw [hd]
  unfold Measure.volumeIoiPow
  have hin : Measurable fun r : ℝ => ∫⁻ u, f (r • u) ∂area := by
    have : Measurable fun y : ℝ × Vec => f (y.1 • y.2) := hf.comp (measurable_fst.smul measurable_snd)
    exact this.lintegral_prod_right'
  have hmap : ∀ r : ℝ, ∫⁻ u, f (r • u) ∂area =
      ∫⁻ u, f (r • ofSphere u) ∂(volume : Measure Space).toSphere := by
    intro r
    unfold area
    exact lintegral_map (f := fun u => f (r • u)) (hf.comp (measurable_const_smul r))
      ofSphere_measurable
  simp only [← hmap]
  refine (lintegral_withDensity_eq_lintegral_mul _ (by fun_prop)
    (hin.comp measurable_subtype_coe)).trans ?_
  exact lintegral_subtype_comap measurableSet_Ioi
    (fun ℓ : ℝ => ENNReal.ofReal (ℓ ^ 2) * ∫⁻ u, f (ℓ • u) ∂area)

/-! ### Positions of the end of a random bond -/

/-- The law of bond lengths, as far as lengths below `R` are concerned: it has a density
proportional to the square of the length and the Boltzmann factor of the energy `u` of the squared
length. -/
def LengthLaw (β : ℝ) (u : ℝ → ℝ) (R : ℝ) (ρ : Measure ℝ) (c : ℝ≥0∞) : Prop :=
  ρ.restrict (Set.Iio R) = (volume.restrict (Set.Ioo 0 R)).withDensity fun ℓ =>
    c * (ENNReal.ofReal (ℓ ^ 2) * ENNReal.ofReal (Real.exp (-β * u (ℓ ^ 2))))

/-- Lattice vectors other than zero are at least `2 R` long. -/
def Wide (bravais : Fin 3 → Vec) (R : ℝ) : Prop :=
  ∀ k, latComb bravais k ≠ 0 → (2 * R) ^ 2 ≤ normSq (latComb bravais k)

theorem normSq_smul (c : ℝ) (v : Vec) : normSq (c • v) = c ^ 2 * normSq v := by
  unfold normSq
  simp only [Pi.smul_apply, smul_eq_mul]
  ring

theorem normSq_neg (v : Vec) : normSq (-v) = normSq v := by
  unfold normSq
  simp only [Pi.neg_apply]
  ring

theorem normSq_measurable : Measurable normSq := by
  unfold normSq
  fun_prop

theorem normSq_nonneg (v : Vec) : 0 ≤ normSq v := by
  unfold normSq
  positivity

/-- Two images closer than `R` are the same. -/
theorem short_unique {bravais : Fin 3 → Vec} {R : ℝ} (hw : Wide bravais R) {v : Vec} {k k' : IVec}
    (h : normSq (v + latComb bravais k) < R ^ 2) (h' : normSq (v + latComb bravais k') < R ^ 2) :
    latComb bravais k = latComb bravais k' := by
  by_contra hne
  have hd : latComb bravais (k - k') = latComb bravais k - latComb bravais k' := by
    have := latComb_add bravais (k - k') k'
    rw [sub_add_cancel] at this
    rw [this, add_sub_cancel_right]
  have h1 := hw (k - k') (by rw [hd]; exact sub_ne_zero.2 hne)
  rw [hd] at h1
  have h2 : ∀ x y : Vec, normSq (x - y) ≤ 2 * normSq x + 2 * normSq y := by
    intro x y
    unfold normSq
    simp only [Pi.sub_apply]
    nlinarith [sq_nonneg (x 0 + y 0), sq_nonneg (x 1 + y 1), sq_nonneg (x 2 + y 2)]
  have h3 := h2 (v + latComb bravais k) (v + latComb bravais k')
  rw [add_sub_add_left_eq_sub] at h3
  nlinarith

variable {gen : Vec → Vec} {lengths : Vec} {bravais : Fin 3 → Vec}

theorem reduce_measurable (g : Geo gen lengths bravais) : Measurable (reduce gen bravais) := by
  have hf : Measurable fun r : Vec => (fun i => -⌊gen r i⌋ : IVec) :=
    measurable_pi_iff.2 fun i =>
      (Int.measurable_floor.comp ((measurable_pi_apply i).comp (gen_continuous g).measurable)).neg
  have hl : Measurable (latComb bravais) := measurable_of_countable _
  have h : Measurable fun r : Vec => latComb bravais (fun i => -⌊gen r i⌋) := hl.comp hf
  exact measurable_id.add h

/-- **Distribution of the end of a random bond.** -/
theorem bond_law (g : Geo gen lengths bravais) {dsq : Vec → Vec → ℝ} (hd : Dist bravais dsq)
    {R : ℝ} (hR0 : 0 < R) (hw : Wide bravais R) (he : ExactBelow gen bravais dsq R) {β : ℝ} {u : ℝ → ℝ}
    (hu : Measurable u) {ρ : Measure ℝ} {c : ℝ≥0∞} (hρ : LengthLaw β u R ρ c) {r : Vec}
    (hr : r ∈ cell gen) {F : Vec → ℝ → ℝ≥0∞} (hF : Measurable (Function.uncurry F)) :
    ∫⁻ ℓ in Set.Iio R, ∫⁻ v, F (reduce gen bravais (r - ℓ • v)) ℓ ∂direction ∂ρ =
      ∫⁻ x in cell gen, (c * (area Set.univ)⁻¹ * (if dsq x r < R ^ 2 then
        ENNReal.ofReal (Real.exp (-β * u (dsq x r))) else 0)) * F x (Real.sqrt (dsq x r)) := by
  classical
  have hred := reduce_measurable g
  obtain ⟨bz, hbz⟩ : ∃ bz : ℝ → ℝ≥0∞, bz = fun x => ENNReal.ofReal (Real.exp (-β * u x)) := ⟨_, rfl⟩
  have hbzm : Measurable bz := by
    rw [hbz]
    exact ENNReal.measurable_ofReal.comp (Real.measurable_exp.comp (measurable_const.mul hu))
  -- the integrand as a function of the bond vector
  obtain ⟨f, hf⟩ : ∃ f : Vec → ℝ≥0∞, f = fun v => if normSq v < R ^ 2 then
      bz (normSq v) * F (reduce gen bravais (r - v)) (Real.sqrt (normSq v)) else 0 := ⟨_, rfl⟩
  have hfm : Measurable f := by
    rw [hf]
    refine Measurable.ite (measurableSet_lt normSq_measurable measurable_const) ?_ measurable_const
    exact (hbzm.comp normSq_measurable).mul (hF.comp ((hred.comp
      (measurable_const.sub measurable_id)).prodMk (normSq_measurable.sqrt)))
  have hin : Measurable fun ℓ : ℝ => ∫⁻ v, F (reduce gen bravais (r - ℓ • v)) ℓ ∂direction := by
    have : Measurable fun y : ℝ × Vec => F (reduce gen bravais (r - y.1 • y.2)) y.1 :=
      hF.comp ((hred.comp (measurable_const.sub (measurable_fst.smul measurable_snd))).prodMk
        measurable_fst)
    exact this.lintegral_prod_right'
  have hρm : Measurable fun ℓ : ℝ => c * (ENNReal.ofReal (ℓ ^ 2) * bz (ℓ ^ 2)) :=
    measurable_const.mul ((ENNReal.measurable_ofReal.comp (measurable_id.pow_const 2)).mul
      (hbzm.comp (measurable_id.pow_const 2)))
  have step1 : ∫⁻ ℓ in Set.Iio R, ∫⁻ v, F (reduce gen bravais (r - ℓ • v)) ℓ ∂direction ∂ρ =
      c * (area Set.univ)⁻¹ * ∫⁻ v, f v := by
    unfold LengthLaw at hρ
    have e1 : (fun ℓ : ℝ => c * (ENNReal.ofReal (ℓ ^ 2) * ENNReal.ofReal (Real.exp (-β * u (ℓ ^ 2))))) =
        fun ℓ : ℝ => c * (ENNReal.ofReal (ℓ ^ 2) * bz (ℓ ^ 2)) := by rw [hbz]
    rw [hρ, e1]
    rw [lintegral_withDensity_eq_lintegral_mul _ hρm hin, polar hfm]
    have hpm : Measurable fun ℓ : ℝ => ENNReal.ofReal (ℓ ^ 2) * ∫⁻ v, f (ℓ • v) ∂area := by
      refine (ENNReal.measurable_ofReal.comp (measurable_id.pow_const 2)).mul ?_
      have : Measurable fun y : ℝ × Vec => f (y.1 • y.2) := hfm.comp (measurable_fst.smul measurable_snd)
      exact this.lintegral_prod_right'
    rw [← lintegral_const_mul _ hpm, ← lintegral_indicator measurableSet_Ioo,
      ← lintegral_indicator measurableSet_Ioi]
    refine lintegral_congr fun ℓ => ?_
    by_cases h0 : 0 < ℓ
    swap
    · rw [Set.indicator_of_notMem (fun h => h0 h.1),
        Set.indicator_of_notMem (show ℓ ∉ Set.Ioi (0 : ℝ) from h0)]
    rw [Set.indicator_of_mem (show ℓ ∈ Set.Ioi (0 : ℝ) from h0)]
    have hunit := area_unit
    by_cases hR : ℓ < R
    · rw [Set.indicator_of_mem (show ℓ ∈ Set.Ioo 0 R from ⟨h0, hR⟩)]
      have e2 : ∫⁻ v, f (ℓ • v) ∂area =
          ∫⁻ v, bz (ℓ ^ 2) * F (reduce gen bravais (r - ℓ • v)) ℓ ∂area := by
        refine lintegral_congr_ae (hunit.mono fun v hv => ?_)
        rw [hf]
        simp only
        rw [normSq_smul, hv, mul_one, if_pos (by nlinarith), Real.sqrt_sq h0.le]
      have hFl : Measurable fun v => F (reduce gen bravais (r - ℓ • v)) ℓ :=
        hF.comp ((hred.comp (measurable_const.sub (measurable_const_smul ℓ))).prodMk measurable_const)
      rw [e2, lintegral_const_mul _ hFl]
      simp only [Pi.mul_apply]
      unfold direction
      rw [lintegral_smul_measure, smul_eq_mul]
      ring
    · rw [Set.indicator_of_notMem (fun h => hR h.2)]
      have e2 : ∫⁻ v, f (ℓ • v) ∂area = 0 := by
        rw [← lintegral_zero (μ := area)]
        refine lintegral_congr_ae (hunit.mono fun v hv => ?_)
        rw [hf]
        simp only
        rw [normSq_smul, hv, mul_one, if_neg]
        nlinarith
      rw [e2, mul_zero, mul_zero]
  -- positions of the end, and their images
  obtain ⟨G, hG⟩ : ∃ G : Vec → ℝ≥0∞, G = fun y => f (r - y) := ⟨_, rfl⟩
  have hGm : Measurable G := by
    rw [hG]
    exact hfm.comp (measurable_const.sub measurable_id)
  have hdom : IsAddFundamentalDomain (lattice bravais) (cell gen) (volume : Measure Vec) :=
    (reduction g).domain (cell_measurable g)
  have step2 : ∫⁻ v, f v = ∫⁻ x in cell gen, ∑' l : lattice bravais, G (l.1 + x) := by
    rw [← lintegral_sub_left_eq_self f r, lintegral_tsum]
    · have := hdom.lintegral_eq_tsum'' G
      rw [hG] at this ⊢
      exact this
    · intro l
      exact (hGm.comp (measurable_const.add measurable_id)).aemeasurable
  have hdx : ∀ x ∈ cell gen, ∑' l : lattice bravais, G (l.1 + x) =
      (if dsq x r < R ^ 2 then bz (dsq x r) else 0) * F x (Real.sqrt (dsq x r)) := by
    intro x hx
    have hGl : ∀ k : IVec, G (latComb bravais k + x) =
        if normSq (x - r + latComb bravais k) < R ^ 2 then
          bz (normSq (x - r + latComb bravais k)) *
            F x (Real.sqrt (normSq (x - r + latComb bravais k))) else 0 := by
      intro k
      have e : r - (latComb bravais k + x) = -(x - r + latComb bravais k) := by abel
      have e' : reduce gen bravais (latComb bravais k + x) = x := by
        rw [(reduction g).add (mem_lattice.2 ⟨k, rfl⟩), (reduction g).self hx]
      rw [hG, hf]
      simp only
      rw [sub_sub_cancel, e', e, normSq_neg]
    obtain ⟨k, hk⟩ := hd.image x r
    by_cases hlt : dsq x r < R ^ 2
    · rw [if_pos hlt, tsum_eq_single (⟨latComb bravais k, mem_lattice.2 ⟨k, rfl⟩⟩ : lattice bravais)]
      · rw [hGl, ← hk, if_pos hlt]
      · rintro ⟨l, hl⟩ hne
        obtain ⟨k', rfl⟩ := mem_lattice.1 hl
        rw [hGl, if_neg]
        intro h
        refine hne (Subtype.ext ?_)
        exact short_unique hw h (by rw [← hk]; exact hlt)
    · rw [if_neg hlt, zero_mul]
      refine ENNReal.tsum_eq_zero.2 ?_
      rintro ⟨l, hl⟩
      obtain ⟨k', rfl⟩ := mem_lattice.1 hl
      rw [hGl, if_neg]
      exact fun h => hlt (he x r hx hr ⟨k', h⟩)
  have hdm : Measurable fun x => ∑' l : lattice bravais, G (l.1 + x) :=
    Measurable.tsum fun l => hGm.comp (measurable_const.add measurable_id)
  rw [step1, step2, ← lintegral_const_mul _ hdm]
  refine setLIntegral_congr_fun (cell_measurable g) fun x hx => ?_
  rw [hdx x hx, hbz, ← mul_assoc]

end Verif.Cfb
