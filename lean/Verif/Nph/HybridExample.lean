/-
Non-vacuity of C69: a spring between two atoms, and a cell without atoms.
-/
import Verif.Nph.HybridProps
import Verif.Nph.Example

set_option autoImplicit false
set_option linter.dupNamespace false

namespace Verif.Nph

open Verif.Boundary Verif.Integrate MeasureTheory
open scoped ENNReal

/-- The cell. -/
def inCell (L : Vec) : Set (Fin 2 → Vec) := {q | ∀ i a, q i a ∈ Set.Ico 0 (L a)}

/-- Energy of the spring. -/
noncomputable def springU (L : Vec) (p : Fin 2 → Vec) : ℝ := ∑ a, bond L p a ^ 2 / 2

/-- Hybrid moves of three steps at temperature 1. -/
noncomputable def springMove : Move (Fin 2) Unit :=
  { spring with energy := fun L _ p => springU L p, temp := 1, nStep := 3 }

theorem spring_inside {L : Vec} (hL : ∀ a, 0 < L a) (p : Fin 2 → Vec) :
    (fun i => spring.shift L (p i)) ∈ inCell L := fun _ a =>
  ⟨mul_nonneg (Int.fract_nonneg _) (hL a).le,
    (mul_lt_mul_of_pos_right (Int.fract_lt_one _) (hL a)).trans_eq (one_mul _)⟩

theorem spring_ok : springMove.OK springF springS springU inCell (fun _ _ _ => True)
    (fun _ _ _ _ => True) where
  box L hL :=
    { (spring_exact.box L hL) with
      ready := fun _ p _ => spring_inside hL p
      build := fun _ _ _ => trivial
      move := fun _ _ _ _ _ _ h => h.elim }
  virial := spring_exact.virial
  periodic := spring_exact.periodic
  move _ _ p z d L' _ _ _ h _ _ _ := ⟨fun _ => trivial, spring_inside h _⟩
  energy _ _ _ _ _ := rfl
  energyPeriodic L p q hL h := by
    unfold springU
    rw [bond_periodic hL h]
  inside _ _ _ h := h
  temp := one_pos
  masses _ := one_pos

theorem spring_tame : Tame springF springS springU (fun _ _ _ _ => True) :=
  { spring_meas with
    U := by
      unfold springU
      exact Finset.measurable_sum _ fun a _ => ((bond_measurable a).pow_const 2).div_const 2
    adm := by simp [AdmMeas] }

/-- Non-vacuity of C69, parts 2 and 4: they hold for the spring. -/
example (dt : ℝ) (A B : Set (Vec × (Fin 2 → Vec))) (hA : MeasurableSet A) (hB : MeasurableSet B) :
    let g : Nph := ⟨dt, 1, .orthorhombic, 0, fun _ => 0⟩
    let st : Vec → (Fin 2 → Vec) → MoveState (Fin 2) Unit := fun L r =>
      ⟨⟨g, L, ⟨r, fun _ => 0, fun _ => 0, ()⟩⟩, r, 0, 0⟩
    springMove.flow g springF springS springU (fun _ _ _ _ => True) (Nph.sampleEta 1) st A B =
      springMove.flow g springF springS springU (fun _ _ _ _ => True) (Nph.sampleEta 1) st B A :=
  have hst : Serves (⟨dt, 1, .orthorhombic, 0, fun _ => 0⟩ : Nph) fun L (r : Fin 2 → Vec) =>
      (⟨⟨⟨dt, 1, .orthorhombic, 0, fun _ => 0⟩, L, ⟨r, fun _ => 0, fun _ => 0, ()⟩⟩, r, 0, 0⟩ :
        MoveState (Fin 2) Unit) :=
    ⟨fun _ _ => rfl, fun _ _ => rfl, fun _ _ => rfl, fun _ _ => rfl, fun _ _ => rfl,
      fun _ _ _ _ => rfl⟩
  C69_balance_partial spring_ok (fun _ _ hL _ => spring_inside hL _) spring_tame rfl
    (by simp) hst hst hA hB

/-- Non-vacuity of C69, part 1: a move of one step of the spring from rest. -/
example (u : ℝ) :
    let y : Move (Fin 2) Unit := { springMove with nStep := 1 }
    let x : MoveState (Fin 2) Unit := ⟨springStart, springStart.sys.pos, 0, 0⟩
    (y.move 0 0 u x).1.nAttempt = 1 ∧
      ((y.move 0 0 u x).2 = false → (y.move 0 0 u x).1.md.L = springStart.L) := by
  intro y x
  have hy : y.OK springF springS springU inCell (fun _ _ _ => True) (fun _ _ _ _ => True) :=
    { toExact := spring_ok.toExact, energy := spring_ok.energy
      energyPeriodic := spring_ok.energyPeriodic, inside := spring_ok.inside
      temp := spring_ok.temp, masses := spring_ok.masses }
  have h := C69_move hy 0 0 u x spring_start.pos spring_start.shape
    (spring_inside spring_start.pos _) (by
      have e : ((springStart.nph.mode.coord springStart.L, fun a =>
          if springStart.nph.mode.Used a then springStart.nph.sigma 1 a * (0 : Vec) a
          else springStart.nph.eta a),
        (fun (i : Fin 2) a => springStart.sys.pos i a / springStart.L a,
          fun (i : Fin 2) a => springStart.L a * (Real.sqrt (1 / y.m i) * (0 : Fin 2 → Vec) i a))) =
          springStart.pt := by
        unfold State.pt
        refine Prod.ext (Prod.ext rfl ?_) (Prod.ext rfl ?_)
        · funext a
          simp [springStart]
        · funext i a
          simp [springStart]
      intro k hk
      obtain rfl : k = 0 := by
        have : k < 1 := hk
        omega
      have := spring_good 0 one_pos
      rw [← e] at this
      exact this)
  exact ⟨h.2.1, fun hr => (h.2.2.2 hr).1⟩

/-- Non-vacuity of C69, parts 4 and 5: without atoms, with the mass 1 of the barostat,
configurations of volumes between 1 and 2, and between 3 and 4, are exchanged at the same
rate, which is not zero. -/
theorem ideal_rate {T p dt : ℝ} (hT : 0 < T) (hp : 0 ≤ p) (hdt : 0 < dt) :
    let f := idealFlow T p dt 1 (idealState dt 1)
    f (between 1 2) (between 3 4) = f (between 3 4) (between 1 2) ∧
      f (between 1 2) (between 3 4) ≠ 0 ∧ f (between 1 2) (between 3 4) ≠ ∞ := by
  have hA := between_measurable 1 2
  have hB := between_measurable 3 4
  refine ⟨C69_balance_partial (ideal_ok hT p) ideal_fits ideal_tame rfl (by simp [idealNph])
    ideal_serves ideal_serves hA hB, ?_, ideal_finite hT hp _ _ _ _⟩
  obtain ⟨Z, hZ0, hZ1, hZ⟩ := flow_eq (g := idealNph dt 1) (ideal_ok hT p) ideal_fits ideal_tame
    (sigma_pos (g := idealNph dt 1) hT one_pos) (sigma_draws (idealNph dt 1) T)
  have f1 := hZ _ ideal_serves _ _ hA hB
  change idealFlow T p dt 1 (idealState dt 1) (between 1 2) (between 3 4) = _ at f1
  rw [f1]
  refine mul_ne_zero hZ0 ?_
  have m1 : Measurable fun z : Pt (Fin 0) => (ideal T p).kernel (idealNph dt 1) (fun _ _ _ => 0)
      (fun _ _ => 0) (fun _ _ => 0) (fun _ _ _ _ => True) (between 1 2) (between 3 4) z *
      (ideal T p).excess (idealNph dt 1) ((idealNph dt 1).sigma T) z.1.2 :=
    (kernel_measurable ideal_tame hA hB).mul
      ((excess_measurable _).comp (measurable_snd.comp measurable_fst))
  rw [Ne, lintegral_eq_zero_iff m1]
  intro h0
  have hs := idealSet_measure (T := T) (p := p) hdt one_pos
  refine hs (measure_mono_null (fun z hz => ?_) (ae_iff.1 h0))
  simp only [Set.mem_ofPred_eq, Pi.zero_apply]
  refine mul_ne_zero ?_ ?_
  · unfold Move.kernel
    unfold idealSet at hz
    rw [Set.indicator_of_mem hz]
    unfold Verif.McMoves.rate
    refine mul_ne_zero ?_ ?_
    · rw [Ne, ENNReal.ofReal_eq_zero, not_le]
      exact Real.exp_pos _
    · rw [Ne, ENNReal.ofReal_eq_zero, not_le]
      exact lt_min one_pos (Real.exp_pos _)
  · rw [ideal_excess hT one_pos, Ne, ENNReal.ofReal_eq_zero, not_le]
    exact Real.exp_pos _

end Verif.Nph
