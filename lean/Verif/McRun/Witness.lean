/-
C84: concrete cases.
-/
import Verif.McRun.Props
import Mathlib.Tactic.NormNum
import Mathlib.MeasureTheory.Measure.Dirac

set_option autoImplicit false

namespace Verif.McRun

open Verif.Cpp
open Verif.Cpp.Out
open MeasureTheory ProbabilityTheory
open scoped ENNReal

/-- Three moves with probabilities 2, 1 and 1 in the file. -/
example : normalize [2, 1, 1] = [1 / 2, 1 / 4, 1 / 4] := by norm_num [normalize, total]

/-- The hypotheses of `C84_normalize` for them. -/
theorem wWeights : (∀ p ∈ ([2, 1, 1] : List ℝ), 0 ≤ p) ∧ ∃ p ∈ ([2, 1, 1] : List ℝ), 0 < p := by
  refine ⟨?_, 2, by simp, by norm_num⟩
  intro p hp
  simp only [List.mem_cons, List.not_mem_nil, or_false] at hp
  rcases hp with rfl | rfl | rfl <;> norm_num

/-- A system with two states; the move that exchanges them and the move that keeps them. -/
noncomputable def wKernel (i : ℕ) : Kernel Bool Bool :=
  Kernel.deterministic (fun b => if i = 0 then !b else b) (measurable_of_finite _)

theorem wMarkov (i : ℕ) : IsMarkovKernel (wKernel i) := by
  unfold wKernel; infer_instance

/-- Both moves satisfy detailed balance with the uniform distribution. -/
theorem wReversible (i : ℕ) : Kernel.IsReversible (wKernel i) (Measure.count : Measure Bool) := by
  intro A B hA hB
  have e : ∀ (C D : Set Bool), ∫⁻ x in C, wKernel i x D ∂(Measure.count : Measure Bool)
      = ∑ x : Bool, C.indicator (fun x => wKernel i x D) x := by
    intro C D
    rw [← lintegral_indicator (Set.toFinite C).measurableSet, lintegral_count, tsum_fintype]
  rw [e, e]
  simp only [wKernel, Fintype.sum_bool,
    Kernel.deterministic_apply' _ _ hA, Kernel.deterministic_apply' _ _ hB]
  by_cases hi : i = 0
  · by_cases h1 : true ∈ A <;> by_cases h2 : false ∈ A <;> by_cases h3 : true ∈ B <;>
      by_cases h4 : false ∈ B <;> simp [hi, h1, h2, h3, h4]
  · by_cases h1 : true ∈ A <;> by_cases h2 : false ∈ A <;> by_cases h3 : true ∈ B <;>
      by_cases h4 : false ∈ B <;> simp [hi, h1, h2, h3, h4]

/-- `C84_invariant` for them, after any number of steps. -/
example (n : ℕ) : (Measure.count : Measure Bool).bind (runKernel (normalize [2, 1, 1]) wKernel n)
    = Measure.count :=
  C84_invariant [2, 1, 1] wWeights.1 wWeights.2 wKernel wMarkov _ (fun i _ => wReversible i) n

/-- `C84_markov` for them. -/
example : IsMarkovKernel (stepKernel (normalize [2, 1, 1]) wKernel) :=
  C84_markov [2, 1, 1] wWeights.1 wWeights.2 wKernel wMarkov

/-- The first move is made with probability one half. -/
example : stepKernel (normalize [2, 1, 1]) wKernel true {false} = ENNReal.ofReal (1 / 2) := by
  rw [stepKernel_apply]
  have : normalize [2, 1, 1] = [1 / 2, 1 / 4, 1 / 4] := by norm_num [normalize, total]
  rw [this]
  simp [wKernel, Finset.sum_range_succ, Kernel.deterministic_apply' _ _ (MeasurableSet.singleton false)]

/-- A run of four steps with two moves. -/
def wSteps : List (ℕ × Bool) := [(0, true), (1, false), (0, false), (0, true)]

/-- Counters before the first run. -/
def wZero : ℕ → Counter := fun _ => Counter.zero

example : (simulate false wZero wSteps 0).nAttempt = 3 ∧ (simulate false wZero wSteps 0).nAccept = 2 :=
  C84_counters wZero wSteps false 0

/-- `C84_rate`: two of three attempts. -/
example : rate (simulate false wZero wSteps 0) = 2 / 3 := by
  have h := (C84_rate wZero wSteps false 0 rfl).1
  have h1 : wSteps.countP (fun s => s.1 = 0) = 3 := by decide
  have h2 : wSteps.countP (fun s => s.1 = 0 ∧ s.2 = true) = 2 := by decide
  rw [h1, h2] at h
  push_cast at h
  linarith

/-- `C84_attempts`: both moves are below two. -/
example : ∑ i ∈ Finset.range 2, (simulate false wZero wSteps i).nAttempt = 4 := by
  rw [C84_attempts 2 wZero wSteps false (by decide)]
  simp [wZero, wSteps, Counter.zero]

/-- **C84 (second run, violated).**  After a second run the attempts that are written exceed the steps of
that run. -/
theorem C84_again_violated : ∃ (c : ℕ → Counter) (s1 s2 : List (ℕ × Bool)) (i : ℕ), c = (fun _ => Counter.zero) ∧
    s2.length < (simulate false (simulate false c s1) s2 i).nAttempt := by
  refine ⟨wZero, wSteps, [(0, true)], 0, rfl, ?_⟩
  rw [C84_again]
  decide

/-- A Monte Carlo move without integrator and a `DpdMove` of ten steps, from a parameter file. -/
def wMovers : ℕ → Mover := fun i => if i = 0 then ⟨Kind.plain, none⟩ else ⟨Kind.dpd 10, none⟩

/-- `C84_setup_violated`: a run that chooses the second move. -/
example : runMoves 1 wMovers [0, 0, 1, 0] = ub :=
  C84_setup_violated 1 wMovers _ 1 (by decide) ⟨rfl, 10, by decide, Or.inl rfl⟩

/-- `C84_dpd_setup`: with `McMoveManager::setup` the move would use the prefactor. -/
example : ((managerSetup 1 wMovers) 1).move 1 = ok ⟨Kind.dpd 10, some 1⟩ :=
  C84_dpd_setup 1 wMovers 1 10 rfl

/-- `C84_hybrid`: a hybrid move from a parameter file. -/
example : (Mover.mk (Kind.hybrid 10) none).move 1 = ok ⟨Kind.hybrid 10, some 1⟩ :=
  C84_hybrid 1 _ 10 rfl

/-- `C84_rate`: a move that no step chooses. -/
example : rate (simulate false wZero wSteps 7) = 0 :=
  (C84_rate wZero wSteps false 7 rfl).2.2.2 (by decide)

/-- A hybrid move and plain moves. -/
def wPair : ℕ → Mover := fun i => if i = 0 then ⟨Kind.hybrid 10, none⟩ else ⟨Kind.plain, none⟩

/-- `C84_moves`: a run of a plain and a hybrid move. -/
example : ∃ ms', runMoves 1 wPair [1, 0] = ok ms' ∧ (ms' 0).prefactor = some 1 ∧ (ms' 1).prefactor = none := by
  have h : ∃ ms', runMoves 1 wPair [1, 0] = ok ms' := by
    simp [runMoves, loop_cons, loop_nil, wPair, Mover.move,
      steps_some ⟨Kind.hybrid 10, some 1⟩ 10 1 rfl, Mover.setupIntegrator]
  obtain ⟨ms', h⟩ := h
  refine ⟨ms', h, ?_, ?_⟩ <;> rw [C84_moves 1 _ _ _ h] <;> simp [afterRun, wPair, Mover.setupIntegrator]

end Verif.McRun
