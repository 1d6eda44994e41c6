/-
Detailed balance of the hybrid move at constant pressure: how it depends on the
distribution from which the momenta of the cell are drawn.
-/
import Verif.Nph.Hybrid
import Verif.McMoves.Balance
import Mathlib.MeasureTheory.Function.Floor

set_option autoImplicit false
set_option linter.dupNamespace false

namespace Verif.Nph

open Verif.Boundary Verif.Integrate MeasureTheory ProbabilityTheory
open Verif.McMoves (metropolis Reduction prob prob_metropolis prob_congr prob_false rate rate_symm)
open scoped ENNReal

/-! ### Momenta of the cell -/

/-- The exponent of the distribution of the momenta. -/
noncomputable def Mode.exponent (mode : Mode) (σ η : Vec) : ℝ :=
  ∑ a, if mode.Used a then η a ^ 2 / (2 * σ a ^ 2) else 0

/-- Deviates for the momenta of the cell. -/
noncomputable def cellDeviates : Measure Vec := Measure.pi fun _ => gaussianReal 0 1

instance : IsProbabilityMeasure cellDeviates := by unfold cellDeviates; infer_instance

theorem exponent_measurable (mode : Mode) (σ : Vec) : Measurable (mode.exponent σ) := by
  unfold Mode.exponent
  refine Finset.measurable_sum _ fun a _ => ?_
  split
  · exact ((measurable_pi_apply a).pow_const 2).div_const _
  · exact measurable_const

theorem eta_lintegral (mode : Mode) {σ : Vec} (hσ : ∀ a, mode.Used a → 0 < σ a) :
    ∃ Z : ℝ≥0∞, Z ≠ 0 ∧ Z ≠ ∞ ∧ ∀ f : Vec → ℝ≥0∞, Measurable f →
      ∫⁻ ge, f (fun a => if mode.Used a then σ a * ge a else 0) ∂cellDeviates =
        Z * ∫⁻ η, ENNReal.ofReal (Real.exp (-mode.exponent σ η)) * f η ∂mode.measure := by
  classical
  -- one component
  set ν : Fin 3 → Measure ℝ := fun a =>
    if mode.Used a then gaussianReal 0 (σ a ^ 2).toNNReal else Measure.dirac 0 with hν
  have hνp : ∀ a, IsProbabilityMeasure (ν a) := fun a => by
    simp only [hν]; split <;> infer_instance
  have h1 : ∀ a, MeasurePreserving (fun x => if mode.Used a then σ a * x else 0)
      (gaussianReal 0 1) (ν a) := fun a => by
    by_cases ha : mode.Used a
    · simp only [ha, if_true, hν]
      refine ⟨measurable_const_mul _, ?_⟩
      rw [gaussianReal_map_const_mul, mul_zero, mul_one]
      congr 1
      ext
      simp [sq_nonneg]
    · simp only [ha, if_false, hν]
      refine ⟨measurable_const, ?_⟩
      rw [Measure.map_const]
      simp
  have h2 : MeasurePreserving (fun ge : Vec => fun a => if mode.Used a then σ a * ge a else 0)
      cellDeviates (Measure.pi ν) := measurePreserving_pi _ _ h1
  -- densities
  set d : Fin 3 → ℝ → ℝ≥0∞ := fun a x =>
    if mode.Used a then gaussianPDF 0 (σ a ^ 2).toNNReal x else 1 with hd
  have hdm : ∀ a, Measurable (d a) := fun a => by
    simp only [hd]
    split
    · exact measurable_gaussianPDF _ _
    · exact measurable_const
  have hnd : ∀ a, ν a = (if mode.Used a then (volume : Measure ℝ) else Measure.dirac 0).withDensity
      (d a) := fun a => by
    by_cases ha : mode.Used a
    · simp only [ha, if_true, hν, hd]
      refine gaussianReal_of_var_ne_zero 0 ?_
      have := hσ a ha
      simpa using this.ne'
    · simp only [ha, if_false, hν, hd]
      rw [show (fun _ : ℝ => (1 : ℝ≥0∞)) = 1 from rfl, withDensity_one]
  have h3 : Measure.pi ν = mode.measure.withDensity fun η => ∏ a, d a (η a) := by
    have i1 := used_sigmaFinite mode
    have i2 : ∀ a, SigmaFinite ((if mode.Used a then (volume : Measure ℝ) else
        Measure.dirac 0).withDensity (d a)) := fun a => by rw [← hnd]; infer_instance
    rw [show ν = fun a => (if mode.Used a then (volume : Measure ℝ) else
        Measure.dirac 0).withDensity (d a) from funext hnd]
    exact Integrate.pi_withDensity d hdm
  -- the constant
  set c : Fin 3 → ℝ≥0∞ := fun a =>
    if mode.Used a then ENNReal.ofReal (Real.sqrt (2 * Real.pi * σ a ^ 2))⁻¹ else 1 with hc
  have hc0 : ∀ a, c a ≠ 0 := fun a => by
    simp only [hc]
    split
    · rename_i ha
      have := hσ a ha
      have : 0 < (Real.sqrt (2 * Real.pi * σ a ^ 2))⁻¹ := by positivity
      simpa [ENNReal.ofReal_eq_zero, not_le] using this
    · exact one_ne_zero
  have hc1 : ∀ a, c a ≠ ∞ := fun a => by
    simp only [hc]
    split
    · exact ENNReal.ofReal_ne_top
    · exact ENNReal.one_ne_top
  have h4 : ∀ η : Vec, ∏ a, d a (η a) =
      (∏ a, c a) * ENNReal.ofReal (Real.exp (-mode.exponent σ η)) := by
    intro η
    have : ∀ a, d a (η a) = c a * ENNReal.ofReal
        (Real.exp (-(if mode.Used a then η a ^ 2 / (2 * σ a ^ 2) else 0))) := by
      intro a
      by_cases ha : mode.Used a
      · simp only [ha, if_true, hd, hc]
        unfold gaussianPDF gaussianPDFReal
        rw [← ENNReal.ofReal_mul (by positivity), Real.coe_toNNReal _ (sq_nonneg _)]
        congr 3
        rw [sub_zero, neg_div]
      · simp [ha, hd, hc]
    simp only [this]
    rw [Finset.prod_mul_distrib, ← ENNReal.ofReal_prod_of_nonneg fun a _ => (Real.exp_pos _).le,
      ← Real.exp_sum]
    congr 3
    unfold Mode.exponent
    rw [Finset.sum_neg_distrib]
  refine ⟨∏ a, c a, Finset.prod_ne_zero_iff.2 fun a _ => hc0 a,
    ENNReal.prod_ne_top fun a _ => hc1 a, fun f hf => ?_⟩
  have hdp : Measurable fun η : Vec => ∏ a, d a (η a) :=
    Finset.measurable_prod _ fun a _ => (hdm a).comp (measurable_pi_apply a)
  rw [h2.lintegral_comp hf, h3, lintegral_withDensity_eq_lintegral_mul _ hdp hf,
    ← lintegral_const_mul]
  · refine lintegral_congr fun η => ?_
    rw [Pi.mul_apply, h4, mul_assoc]
  · exact (Real.measurable_exp.comp (exponent_measurable mode σ).neg).ennreal_ofReal.mul hf

/-! ### Reversal in one cell -/

section Turn

variable {ι : Type} {y : Dyn ι}

theorem moveIn_turn (h : ℝ) {z : Pt ι} (hz : z.2.1 ∈ unitCell ι) :
    y.moveIn fold h (turn (y.moveIn fold h z)) = turn z := by
  refine Prod.ext rfl (Prod.ext ?_ rfl)
  refine fold_reduction.unique _ (fold_reduction.mem _) _ hz ?_
  have h1 := alike_fold (ι := ι) ((y.move h (turn (y.moveIn fold h z))).2.1)
  have h2 := alike_fold (ι := ι) ((y.move h z).2.1)
  have := (units ι).add_mem h1 h2
  convert this using 1
  funext i a
  simp only [Dyn.moveIn, Dyn.move, turn, Pi.sub_apply, Pi.add_apply]
  ring

theorem stepIn_turn (hy : y.Even) (dt : ℝ) {z : Pt ι} (hz : z.2.1 ∈ unitCell ι) :
    y.stepIn fold dt (turn (y.stepIn fold dt z)) = turn z := by
  unfold Dyn.stepIn Dyn.half
  rw [push_turn hy, kick_turn, grow_turn, moveIn_turn, grow_turn, kick_turn, push_turn hy]
  exact hz

theorem stepIn_mem (dt : ℝ) (z : Pt ι) : (y.stepIn fold dt z).2.1 ∈ unitCell ι :=
  fold_reduction.mem _

theorem stepsIn_mem (dt : ℝ) (n : ℕ) {z : Pt ι} (hz : z.2.1 ∈ unitCell ι) :
    ((y.stepIn fold dt)^[n] z).2.1 ∈ unitCell ι := by
  cases n with
  | zero => exact hz
  | succ n => rw [Function.iterate_succ_apply']; exact stepIn_mem dt _

/-- Going back `k` steps. -/
theorem stepsIn_turn (hy : y.Even) (dt : ℝ) (k n : ℕ) {z : Pt ι} (hz : z.2.1 ∈ unitCell ι) :
    (y.stepIn fold dt)^[k] (turn ((y.stepIn fold dt)^[n + k] z)) =
      turn ((y.stepIn fold dt)^[n] z) := by
  induction k with
  | zero => rfl
  | succ k ih =>
    rw [Function.iterate_succ_apply, ← add_assoc, Function.iterate_succ_apply',
      stepIn_turn hy dt (stepsIn_mem dt _ hz), ih]

/-- The trial move as a map: simulation followed by reversal. -/
noncomputable def Dyn.trial (y : Dyn ι) (dt : ℝ) (n : ℕ) (z : Pt ι) : Pt ι :=
  turn ((y.stepIn fold dt)^[n] z)

theorem trial_mem (dt : ℝ) (n : ℕ) {z : Pt ι} (hz : z.2.1 ∈ unitCell ι) :
    (y.trial dt n z).2.1 ∈ unitCell ι := stepsIn_mem (y := y) dt n hz

theorem trial_trial (hy : y.Even) (dt : ℝ) (n : ℕ) {z : Pt ι} (hz : z.2.1 ∈ unitCell ι) :
    y.trial dt n (y.trial dt n z) = z := by
  have := stepsIn_turn hy dt n 0 hz
  rw [zero_add] at this
  unfold Dyn.trial
  rw [this]
  exact turn_turn z

theorem trial_steps (hy : y.Even) (dt : ℝ) {k n : ℕ} (hk : k ≤ n) {z : Pt ι}
    (hz : z.2.1 ∈ unitCell ι) :
    (y.stepIn fold dt)^[k] (y.trial dt n z) = turn ((y.stepIn fold dt)^[n - k] z) := by
  have := stepsIn_turn hy dt k (n - k) hz
  rw [Nat.sub_add_cancel hk] at this
  exact this

theorem stepIn_cell (dt : ℝ) (z : Pt ι) : (y.stepIn fold dt z).1.1 = (y.step dt z).1.1 := rfl

/-- The trial move can be made by the program, forward and backward. -/
structure Fair (mode : Mode) (adm : Vec → (ι → Vec) → (ι → Vec) → Vec → Prop) (y : Dyn ι) (dt : ℝ)
    (n : ℕ) (z : Pt ι) : Prop where
  cell : mode.Pos z.1.1
  atoms : z.2.1 ∈ unitCell ι
  ahead : ∀ k < n, Good mode adm y dt ((y.stepIn fold dt)^[k] z)
  back : ∀ k < n, Good mode adm y dt (turn ((y.stepIn fold dt)^[k + 1] z))

variable {mode : Mode} {adm : Vec → (ι → Vec) → (ι → Vec) → Vec → Prop}

theorem Fair.endCell {dt : ℝ} {n : ℕ} {z : Pt ι} (h : Fair mode adm y dt n z) :
    mode.Pos ((y.stepIn fold dt)^[n] z).1.1 := by
  cases n with
  | zero => exact h.cell
  | succ n =>
    rw [Function.iterate_succ_apply', stepIn_cell]
    exact (h.ahead n (by omega)).whole

theorem Fair.trial (hy : y.Even) {dt : ℝ} {n : ℕ} {z : Pt ι} (h : Fair mode adm y dt n z) :
    Fair mode adm y dt n (y.trial dt n z) where
  cell := h.endCell
  atoms := trial_mem dt n h.atoms
  ahead k hk := by
    rw [trial_steps hy dt hk.le h.atoms]
    have := h.back (n - k - 1) (by omega)
    rwa [show n - k - 1 + 1 = n - k by omega] at this
  back k hk := by
    rw [trial_steps hy dt (by omega) h.atoms, turn_turn]
    exact h.ahead _ (by omega)

theorem fair_trial_iff (hy : y.Even) {dt : ℝ} {n : ℕ} {z : Pt ι} (hz : z.2.1 ∈ unitCell ι) :
    Fair mode adm y dt n (y.trial dt n z) ↔ Fair mode adm y dt n z :=
  ⟨fun h => by have := h.trial hy; rwa [trial_trial hy dt n hz] at this, fun h => h.trial hy⟩

end Turn

/-! ### Measurability -/

section Measurable

variable {ι : Type} [Fintype ι] {mode : Mode} {W extP : ℝ} {m : ι → ℝ}
  {F : Vec → (ι → Vec) → ι → Vec} {S : Vec → (ι → Vec) → Vec}

theorem turn_preserving (C : Set (ι → Vec)) :
    MeasurePreserving (turn : Pt ι → Pt ι) (mode.phase C) (mode.phase C) := by
  have h1 : MeasurePreserving (fun q : Vec => fun a => -q a) mode.measure mode.measure := by
    have := used_sigmaFinite mode
    unfold Mode.measure
    refine measurePreserving_pi (f := fun (_ : Fin 3) (x : ℝ) => -x) _ _ fun a => ?_
    by_cases h : mode.Used a
    · simp only [h, if_true]
      exact Measure.measurePreserving_neg volume
    · simp only [h, if_false]
      refine ⟨measurable_neg, ?_⟩
      rw [Measure.map_dirac' measurable_neg, neg_zero]
  have h2 : MeasurePreserving (fun v : ι → Vec => fun i a => -v i a) volume volume :=
    Measure.measurePreserving_neg (volume : Measure (ι → Vec))
  exact ((MeasurePreserving.id mode.measure).prod h1).prod
    ((MeasurePreserving.id (volume.restrict C)).prod h2)

theorem trial_preserving (h : Meas F S) (dt : ℝ) (n : ℕ) :
    MeasurePreserving ((dyn mode W extP m F S).trial dt n) (mode.phase (unitCell ι))
      (mode.phase (unitCell ι)) :=
  (turn_preserving _).comp
    ((stepIn_preserving h fold_reduction unitCell_measurable dt).iterate n)

theorem turn_measurable : Measurable (turn : Pt ι → Pt ι) :=
  (turn_preserving (mode := .cubic) Set.univ).measurable

theorem stepsIn_measurable (h : Meas F S) (dt : ℝ) (n : ℕ) :
    Measurable (((dyn mode W extP m F S).stepIn fold dt)^[n]) :=
  (stepIn_preserving h fold_reduction unitCell_measurable dt).measurable.iterate n

theorem half_measurable (h : Meas F S) (dt : ℝ) :
    Measurable ((dyn mode W extP m F S).half dt) := by
  unfold Dyn.half
  exact ((grow_preserving (C := Set.univ) _).comp ((kick_preserving h _).comp
    (push_preserving h _))).measurable

theorem pos_measurable (mode : Mode) {α : Type} [MeasurableSpace α] {q : α → Vec}
    (hq : Measurable q) : MeasurableSet {x | mode.Pos (q x)} :=
  (hq.prodMk (measurable_const (a := (0 : Vec)))) (positive_measurable mode)

theorem shift_measurable (h : Meas F S) (dt : ℝ) :
    Measurable ((dyn mode W extP m F S).shift dt) := by
  unfold Dyn.shift
  have hl : Measurable (dyn mode W extP m F S).len := len_measurable mode
  have hh := half_measurable (mode := mode) (W := W) (extP := extP) (m := m) h dt
  have h1 : Measurable fun z : Pt ι => (dyn mode W extP m F S).len z.1.1 :=
    hl.comp (measurable_fst.comp measurable_fst)
  have h2 : Measurable fun z : Pt ι => (dyn mode W extP m F S).len
      ((dyn mode W extP m F S).half dt z).1.1 :=
    hl.comp (measurable_fst.comp (measurable_fst.comp hh))
  have h3 : Measurable fun z : Pt ι => ((dyn mode W extP m F S).half dt z).2.2 :=
    measurable_snd.comp (measurable_snd.comp hh)
  refine measurable_pi_lambda _ fun i => measurable_pi_lambda _ fun a => ?_
  have e1 := (measurable_pi_apply a).comp h1
  have e2 := (measurable_pi_apply a).comp h2
  have e3 := (measurable_pi_apply a).comp ((measurable_pi_apply i).comp h3)
  exact e1.mul ((e3.div (e2.mul e2)).const_mul dt)

variable {adm : Vec → (ι → Vec) → (ι → Vec) → Vec → Prop}

/-- Admissible motions form a measurable set. -/
def AdmMeas (adm : Vec → (ι → Vec) → (ι → Vec) → Vec → Prop) : Prop :=
  MeasurableSet {w : (Vec × (ι → Vec)) × ((ι → Vec) × Vec) | adm w.1.1 w.1.2 w.2.1 w.2.2}

theorem good_measurable (h : Meas F S) (ha : AdmMeas adm) (dt : ℝ) :
    MeasurableSet {z | Good mode adm (dyn mode W extP m F S) dt z} := by
  have hl : Measurable (dyn mode W extP m F S).len := len_measurable mode
  have h1 : Measurable fun z : Pt ι => ((dyn mode W extP m F S).half dt z).1.1 :=
    measurable_fst.comp (measurable_fst.comp (half_measurable h dt))
  have h2 : Measurable fun z : Pt ι => ((dyn mode W extP m F S).step dt z).1.1 := by
    have : Measurable fun z : Pt ι => ((dyn mode W extP m F S).stepIn fold dt z).1.1 :=
      measurable_fst.comp (measurable_fst.comp
        (stepIn_preserving h fold_reduction unitCell_measurable dt).measurable)
    exact this
  have h0 : Measurable fun z : Pt ι => (dyn mode W extP m F S).len z.1.1 :=
    hl.comp (measurable_fst.comp measurable_fst)
  have h3 : Measurable fun z : Pt ι => (((dyn mode W extP m F S).len z.1.1,
      place ((dyn mode W extP m F S).len z.1.1) z.2.1), ((dyn mode W extP m F S).shift dt z,
      (dyn mode W extP m F S).len ((dyn mode W extP m F S).step dt z).1.1)) :=
    (h0.prodMk (place_measurable h0 (measurable_fst.comp measurable_snd))).prodMk
      ((shift_measurable h dt).prodMk (hl.comp h2))
  have : {z | Good mode adm (dyn mode W extP m F S) dt z} =
      {z | mode.Pos ((dyn mode W extP m F S).half dt z).1.1} ∩
      ({z | mode.Pos ((dyn mode W extP m F S).step dt z).1.1} ∩
        {z | adm ((dyn mode W extP m F S).len z.1.1)
          (place ((dyn mode W extP m F S).len z.1.1) z.2.1) ((dyn mode W extP m F S).shift dt z)
          ((dyn mode W extP m F S).len ((dyn mode W extP m F S).step dt z).1.1)}) := by
    ext z
    exact ⟨fun h => ⟨h.half, h.whole, h.adm⟩, fun h => ⟨h.1, h.2.1, h.2.2⟩⟩
  rw [this]
  exact (pos_measurable mode h1).inter ((pos_measurable mode h2).inter (h3 ha))

theorem fair_measurable (h : Meas F S) (ha : AdmMeas adm) (dt : ℝ) (n : ℕ) :
    MeasurableSet {z | Fair mode adm (dyn mode W extP m F S) dt n z} := by
  have : {z | Fair mode adm (dyn mode W extP m F S) dt n z} =
      {z | mode.Pos z.1.1} ∩ ((fun z : Pt ι => z.2.1) ⁻¹' unitCell ι ∩
      ((⋂ k, ⋂ (_ : k < n), ((dyn mode W extP m F S).stepIn fold dt)^[k] ⁻¹'
          {z | Good mode adm (dyn mode W extP m F S) dt z}) ∩
        ⋂ k, ⋂ (_ : k < n), (fun z => turn (((dyn mode W extP m F S).stepIn fold dt)^[k + 1] z)) ⁻¹'
          {z | Good mode adm (dyn mode W extP m F S) dt z})) := by
    ext z
    simp only [Set.mem_inter_iff, Set.mem_iInter, Set.mem_preimage, Set.mem_ofPred_eq]
    exact ⟨fun h => ⟨h.cell, h.atoms, h.ahead, h.back⟩, fun h => ⟨h.1, h.2.1, h.2.2.1, h.2.2.2⟩⟩
  rw [this]
  refine (pos_measurable mode (measurable_fst.comp measurable_fst)).inter
    (((measurable_fst.comp measurable_snd) unitCell_measurable).inter
    ((MeasurableSet.iInter fun k => MeasurableSet.iInter fun _ => ?_).inter
      (MeasurableSet.iInter fun k => MeasurableSet.iInter fun _ => ?_)))
  · exact stepsIn_measurable h dt k (good_measurable h ha dt)
  · exact (turn_measurable.comp (stepsIn_measurable h dt (k + 1))) (good_measurable h ha dt)

theorem enthalpy_measurable (W extP : ℝ) (m : ι → ℝ) {U : Vec → (ι → Vec) → ℝ}
    (hU : Measurable fun z : Vec × (ι → Vec) => U z.1 z.2) :
    Measurable (enthalpy mode W extP m U) := by
  have hl : Measurable fun z : Pt ι => mode.len z.1.1 :=
    (len_measurable mode).comp (measurable_fst.comp measurable_fst)
  have h1 : Measurable fun z : Pt ι => place (mode.len z.1.1) z.2.1 :=
    place_measurable hl (measurable_fst.comp measurable_snd)
  have h2 : Measurable fun z : Pt ι => speed (mode.len z.1.1) z.2.2 :=
    speed_measurable hl (measurable_snd.comp measurable_snd)
  have h3 : Measurable fun z : Pt ι => kinetic m (speed (mode.len z.1.1) z.2.2) := by
    unfold kinetic
    refine Finset.measurable_sum _ fun i _ => Finset.measurable_sum _ fun a _ => ?_
    exact ((((measurable_pi_apply a).comp ((measurable_pi_apply i).comp h2)).pow_const 2).const_mul
      _).div_const _
  have h4 : Measurable fun z : Pt ι => mode.kinetic W z.1.2 := by
    unfold Mode.kinetic
    refine Finset.measurable_sum _ fun a _ => ?_
    exact ((((measurable_pi_apply a).comp (measurable_snd.comp measurable_fst)).pow_const
      2).const_mul _).div_const _
  exact (((hU.comp (hl.prodMk h1)).add h3).add ((vol_measurable.comp hl).const_mul extP)).add h4

end Measurable

end Verif.Nph
