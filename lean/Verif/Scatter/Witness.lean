/-
C83: concrete cases.
-/
import Verif.Scatter.Props
import Mathlib.Tactic.NormNum

set_option autoImplicit false

namespace Verif.Scatter

open Verif.Cpp
open Verif.Cpp.Out

/-- Reciprocal basis of a cubic cell of side 1. -/
noncomputable def wRecip : Fin 3 → V3 := fun i k => if i = k then 2 * Real.pi else 0

/-- Basis of the cubic cell of side 1. -/
def wBasis : Fin 3 → V3 := fun i k => if i = k then 1 else 0

/-- The hypothesis of `C83_periodic` holds for a cubic cell. -/
theorem wDual : ∀ i k, dot (wBasis k) (wRecip i) = if i = k then 2 * Real.pi else 0 := by
  intro i k
  fin_cases i <;> fin_cases k <;> simp [dot, wBasis, wRecip]

/-- Two atoms of types 0 and 1 at the origin and at the middle of an edge. -/
noncomputable def wAtoms : List Atom :=
  [⟨fun _ => 0, 0⟩, ⟨fun k => if k = 0 then 1 / 2 else 0, 1⟩]

/-- The waves (0,0,0) and (1,0,0). -/
def wWave (i : ℕ) : Fin 3 → ℤ := fun k => if i = 1 ∧ k = 0 then 1 else 0

/-- Two waves and one mode, with coefficients 1. -/
def wPars : Pars := ⟨2, 1, wWave, fun _ _ => 1⟩

/-- The two atoms on two processors, volume 1. -/
noncomputable def wConfig : Config := ⟨wAtoms.map fun a => [a], wRecip, 1⟩

theorem w_phase_origin (q : V3) : phase q (fun _ => 0) = 1 := by
  simp [phase, dot]

theorem w_phase_zero (r : V3) : phase (waveVector wRecip (wWave 0)) r = 1 := by
  have : dot r (waveVector wRecip (wWave 0)) = 0 := by
    simp [dot, waveVector_apply, wWave]
  simp [phase, this]

theorem w_phase_one :
    phase (waveVector wRecip (wWave 1)) (fun k => if k = 0 then 1 / 2 else 0) = -1 := by
  have : dot (fun k => if k = 0 then 1 / 2 else 0) (waveVector wRecip (wWave 1)) = Real.pi := by
    simp [dot, waveVector_apply, wWave, wRecip]
  rw [phase, this, Complex.exp_pi_mul_I]

/-- The value of the first wave, zero, is four: both atoms contribute. -/
theorem w_value_zero : value wPars wConfig 0 0 = 4 := by
  simp only [value, totalFourier, wConfig, wAtoms, wPars, fourier_eq, List.map_cons, List.map_nil,
    List.sum_cons, List.sum_nil, w_phase_zero]
  norm_num [Complex.normSq_apply]

/-- The value of the second wave is zero: the two atoms cancel. -/
theorem w_value_one : value wPars wConfig 1 0 = 0 := by
  simp only [value, totalFourier, wConfig, wAtoms, wPars, fourier_eq, List.map_cons, List.map_nil,
    List.sum_cons, List.sum_nil, w_phase_one, w_phase_origin]
  norm_num

/-- `C83_ranks`: the atoms on two processors, in any order. -/
example : totalFourier wRecip (fun _ => 1) (wWave 1) wConfig.ranks
    = (wAtoms.reverse.map fun a => ((1 : ℝ) : ℂ) * phase (waveVector wRecip (wWave 1)) a.pos).sum :=
  C83_ranks wRecip (fun _ => 1) (wWave 1) _ _ (by
    have : wConfig.ranks.flatten = wAtoms := rfl
    rw [this]
    exact (List.reverse_perm wAtoms).symm)

/-- `C83_periodic`: the atoms of the cubic cell moved to other cells. -/
example : fourier wRecip (fun _ => 1) (wWave 1)
      (wAtoms.map fun x => ⟨x.pos + lattice wBasis (fun k => if k = 0 then 3 else -1), x.typ⟩)
    = fourier wRecip (fun _ => 1) (wWave 1) wAtoms :=
  C83_periodic wRecip wBasis _ _ _ (fun _ k => if k = 0 then 3 else -1) wDual

/-- `C83_mc_output`: mcMd writes 4 for the first wave. -/
example : (loop (sample 0 wPars) [wConfig, wConfig] (clear ddRead)).bind (fun s => output s 0 0) = ok 4 := by
  rw [C83_mc_output wPars ddRead _ 0 0 (by decide) (by decide)]
  norm_num [w_value_zero]

/-- `C83_dd_first_violated`: ddMd writes 0 for the same configurations. -/
example : (loop (sample 1 wPars) [wConfig, wConfig] (clear ddRead)).bind (fun s => output s 0 0) = ok 0 :=
  C83_dd_first_violated wPars ddRead _ 0

/-- **C83 (ddMd, first wave, violated).**  The value written for the first wave is not the mean of its
samples. -/
theorem C83_dd_first_witness : ∃ (p : Pars) (cs : List Config), 0 < p.nWave ∧ 0 < p.nMode ∧
    (loop (sample 1 p) cs (clear ddRead)).bind (fun s => output s 0 0)
      ≠ ok ((cs.map fun c => value p c 0 0).sum / cs.length) := by
  refine ⟨wPars, [wConfig], by decide, by decide, ?_⟩
  rw [C83_dd_first_violated]
  norm_num [w_value_zero]

/-- `C83_dd_output`: the second wave. -/
example : (loop (sample 1 wPars) [wConfig] (clear ddRead)).bind (fun s => output s 1 0) = ok 0 := by
  rw [C83_dd_output wPars ddRead _ 1 0 (by decide) (by decide) (by decide)]
  norm_num [w_value_one]

/-- A cell with the same two atoms and twice the volume. -/
noncomputable def wConfig' : Config := { wConfig with volume := 2 }

theorem w_value_zero' : value wPars wConfig' 0 0 = 2 := by
  simp only [value, totalFourier, wConfig', wConfig, wAtoms, wPars, fourier_eq, List.map_cons, List.map_nil,
    List.sum_cons, List.sum_nil, w_phase_zero]
  norm_num [Complex.normSq_apply]

/-- **C83 (grid, violated).**  After a second run the grid analyzer of mcMd does not write the mean over
that run: it writes 3, and the samples of the second run are all 2. -/
theorem C83_grid_again_violated : ∃ (p : Pars) (cs cs' : List Config), 0 < p.nWave ∧ 0 < p.nMode ∧
    ((loop (sample 0 p) cs (gridClear gridRead)).bind fun s =>
      (loop (sample 0 p) cs' (gridClear s)).bind fun s => output s 0 0)
      ≠ ok ((cs'.map fun c => value p c 0 0).sum / cs'.length) := by
  refine ⟨wPars, [wConfig], [wConfig'], by decide, by decide, ?_⟩
  rw [C83_grid_again 0 wPars _ _ 0 0 (by decide) (by decide) (by decide)]
  norm_num [w_value_zero, w_value_zero']

/-- `C83_maximum`: the maximum over the two waves of mcMd is that of the first. -/
example : maximum 0 wPars wConfig 0 = (4, some 0) := by
  obtain ⟨h1, i, _, hi, h2⟩ := C83_maximum 0 wPars wConfig (by norm_num [wConfig]) (by decide) 0
  have h3 := h1 0 (by omega) (by decide)
  rw [w_value_zero] at h3
  have hi2 : i < 2 := hi
  rcases (by omega : i = 0 ∨ i = 1) with rfl | rfl
  · rw [h2, w_value_zero]
  · rw [h2] at h3
    simp only [w_value_one] at h3
    norm_num at h3

/-- `C83_partial_sum`: both types are below two. -/
example : partialValue wRecip 1 (wWave 1) wAtoms (-1) (-1)
    = ∑ s ∈ Finset.range 2, ∑ t ∈ Finset.range 2, partialValue wRecip 1 (wWave 1) wAtoms s t :=
  C83_partial_sum wRecip 1 (wWave 1) 2 wAtoms (by
    intro a ha
    simp only [wAtoms, List.mem_cons, List.not_mem_nil, or_false] at ha
    rcases ha with rfl | rfl <;> decide)

/-- The partial structure factor of the two types is −1: the modes have opposite signs. -/
example : partialValue wRecip 1 (wWave 1) wAtoms 0 1 = -1 := by
  simp [partialValue, rho, fourier_eq, wAtoms, w_phase_origin]
  have := w_phase_one
  simp only [one_div] at this
  rw [this]
  norm_num

/-- `C83_vanHove`: the first wave. -/
example : Complex.normSq (vanHove wConfig (wPars.modes 0) (wPars.waves 0)) = 4 := by
  rw [C83_vanHove wPars wConfig (by norm_num [wConfig]) 0 0, w_value_zero]

end Verif.Scatter
