/-
Velocity Verlet preserves the volume of phase space, with and without periodic
boundary conditions.
-/
import Verif.Integrate.Verlet
import Verif.McMoves.Measure
import Mathlib.MeasureTheory.Measure.Prod
import Mathlib.MeasureTheory.Group.Prod

set_option autoImplicit false

namespace Verif.Integrate

open Verif.Boundary Verif.McMoves MeasureTheory
open scoped ENNReal

section Reduce

variable {E : Type} [AddCommGroup E] [MeasurableSpace E] [MeasurableAdd₂ E] [MeasurableNeg E]
  {μ : Measure E} [μ.IsAddLeftInvariant]
  {L : AddSubgroup E} {C : Set E} {red : E → E}

theorem _root_.Verif.McMoves.Reduction.measurable (h : Reduction L C red) [Countable L]
    (hC : MeasurableSet C) : Measurable red := by
  intro B hB
  have : red ⁻¹' B = ⋃ l : L, (fun x => x + (l : E)) ⁻¹' (B ∩ C) := by
    ext x
    simp only [Set.mem_preimage, Set.mem_iUnion, Set.mem_inter_iff]
    constructor
    · intro hx
      refine ⟨⟨red x - x, h.class_ x⟩, ?_⟩
      dsimp only
      rw [add_sub_cancel]
      exact ⟨hx, h.mem x⟩
    · rintro ⟨⟨l, hl⟩, hB', hC'⟩
      rw [h.eq (x := x) hC' (by rwa [add_sub_cancel_left])]
      exact hB'
  rw [this]
  exact MeasurableSet.iUnion fun l => (measurable_add_const _) (hB.inter hC)

/-- A translation followed by reduction preserves the volume of the cell. -/
theorem _root_.Verif.McMoves.Reduction.map_translate (h : Reduction L C red) [Countable L]
    (hC : MeasurableSet C) (u : E) :
    (μ.restrict C).map (fun x => red (x + u)) = μ.restrict C := by
  have hm : Measurable fun x => red (x + u) := (h.measurable hC).comp (measurable_add_const u)
  ext B hB
  rw [Measure.map_apply hm hB, ← lintegral_indicator_one (hm hB), ← lintegral_indicator_one hB]
  have e := h.translate (μ := μ) hC (fun _ y => B.indicator 1 y) u
  exact e

end Reduce

section Phase

variable {ι : Type} [Fintype ι] {Λ : AddSubgroup Vec} {C : Set (ι → Vec)}
  {red : (ι → Vec) → ι → Vec} {L : AddSubgroup (ι → Vec)}

/-- Measure of sets of points of phase space with positions in the primary cell. -/
noncomputable def phaseVolume (C : Set (ι → Vec)) : Measure (Phase ι) :=
  (volume.restrict C).prod volume

/-- Free motion followed by reduction to the primary cell. -/
def driftIn (red : (ι → Vec) → ι → Vec) (h : ℝ) (z : Phase ι) : Phase ι :=
  (red (drift h z).1, z.2)

/-- Velocity Verlet in the primary cell. -/
noncomputable def verletIn (red : (ι → Vec) → ι → Vec) (m : ι → ℝ) (F : (ι → Vec) → ι → Vec)
    (dt : ℝ) (z : Phase ι) : Phase ι :=
  kick m F (dt / 2) (driftIn red dt (kick m F (dt / 2) z))

theorem kick_preserving (m : ι → ℝ) {F : (ι → Vec) → ι → Vec} (hF : Measurable F) (h : ℝ) :
    MeasurePreserving (kick m F h) (phaseVolume C) (phaseVolume C) := by
  unfold phaseVolume
  have hg : Measurable (Function.uncurry fun (x v : ι → Vec) (i : ι) => v i + (h / m i) • F x i) := by
    refine measurable_pi_lambda _ fun i => ?_
    exact ((measurable_pi_apply i).comp measurable_snd).add
      (((measurable_pi_apply i).comp (hF.comp measurable_fst)).const_smul (h / m i))
  refine (MeasurePreserving.id (volume.restrict C)).skew_product
    (g := fun (x v : ι → Vec) (i : ι) => v i + (h / m i) • F x i) hg ?_
  refine Filter.Eventually.of_forall fun x => ?_
  have : (fun (v : ι → Vec) (i : ι) => v i + (h / m i) • F x i) =
      fun v => v + fun i => (h / m i) • F x i := rfl
  rw [this]
  exact (measurePreserving_add_right volume _).map_eq

theorem driftIn_preserving (hR : Reduction L C red) [Countable L] (hC : MeasurableSet C) (h : ℝ) :
    MeasurePreserving (driftIn red h) (phaseVolume C) (phaseVolume C) := by
  unfold phaseVolume
  have hg : Measurable (Function.uncurry fun (v x : ι → Vec) => red fun i => x i + h • v i) := by
    refine (hR.measurable hC).comp (measurable_pi_lambda _ fun i => ?_)
    exact ((measurable_pi_apply i).comp measurable_snd).add
      (((measurable_pi_apply i).comp measurable_fst).const_smul h)
  have key := (MeasurePreserving.id (volume : Measure (ι → Vec))).skew_product
    (μc := volume.restrict C) (μd := volume.restrict C)
    (g := fun (v x : ι → Vec) => red fun i => x i + h • v i) hg
    (Filter.Eventually.of_forall fun v => hR.map_translate hC fun i => h • v i)
  have s1 : MeasurePreserving (Prod.swap : Phase ι → Phase ι) ((volume.restrict C).prod volume)
      (volume.prod (volume.restrict C)) := Measure.measurePreserving_swap
  have s2 : MeasurePreserving (Prod.swap : Phase ι → Phase ι) (volume.prod (volume.restrict C))
      ((volume.restrict C).prod volume) := Measure.measurePreserving_swap
  exact s2.comp (key.comp s1)

/-- **Velocity Verlet preserves phase space volume.** -/
theorem verletIn_preserving (hR : Reduction L C red) [Countable L] (hC : MeasurableSet C)
    (m : ι → ℝ) {F : (ι → Vec) → ι → Vec} (hF : Measurable F) (dt : ℝ) :
    MeasurePreserving (verletIn red m F dt) (phaseVolume C) (phaseVolume C) :=
  (kick_preserving m hF _).comp ((driftIn_preserving hR hC _).comp (kick_preserving m hF _))

theorem flip_preserving : MeasurePreserving (flip : Phase ι → Phase ι) (phaseVolume C)
    (phaseVolume C) := by
  unfold phaseVolume
  have : (flip : Phase ι → Phase ι) = Prod.map id fun v => -v := by
    funext z
    rfl
  rw [this]
  exact (MeasurePreserving.id _).prod (Measure.measurePreserving_neg volume)

omit [Fintype ι] in
/-- Reduction to the cell commutes with the algorithm, for forces with the
periodicity of the cell. -/
theorem verletIn_red (hR : Reduction L C red) (m : ι → ℝ) {F : (ι → Vec) → ι → Vec}
    (hF : ∀ x l, l ∈ L → F (x + l) = F x) (dt : ℝ) (z : Phase ι) :
    verletIn red m F dt (red z.1, z.2) =
      (red (verlet m F dt z).1, (verlet m F dt z).2) := by
  have hred : ∀ x, F (red x) = F x := fun x => by
    have := hF x _ (hR.class_ x)
    rwa [add_sub_cancel] at this
  have hadd : ∀ x d : ι → Vec, red (red x + d) = red (x + d) := fun x d => by
    have := hR.add (hR.class_ x) (x + d)
    rwa [← add_assoc, sub_add_cancel] at this
  have e1 : kick m F (dt / 2) (red z.1, z.2) =
      (red z.1, (kick m F (dt / 2) z).2) := by
    unfold kick
    simp only [hred]
  unfold verletIn verlet
  rw [e1]
  set v1 := (kick m F (dt / 2) z).2 with hv1
  have e2 : driftIn red dt (red z.1, v1) = (red (drift dt (kick m F (dt / 2) z)).1, v1) := by
    unfold driftIn drift
    dsimp only
    have := hadd z.1 fun i => dt • v1 i
    refine Prod.ext ?_ rfl
    exact this
  rw [e2]
  unfold kick
  simp only [hred]
  rfl

omit [Fintype ι] in
theorem verletIn_iterate (hR : Reduction L C red) (m : ι → ℝ) {F : (ι → Vec) → ι → Vec}
    (hF : ∀ x l, l ∈ L → F (x + l) = F x) (dt : ℝ) (n : ℕ) (z : Phase ι) :
    (verletIn red m F dt)^[n] (red z.1, z.2) =
      (red ((verlet m F dt)^[n] z).1, ((verlet m F dt)^[n] z).2) := by
  induction n generalizing z with
  | zero => rfl
  | succ n ih =>
    rw [Function.iterate_succ_apply, Function.iterate_succ_apply, verletIn_red hR m hF, ih]

end Phase

end Verif.Integrate
