/-
Acceptance ratio method: mcMd/analyzers/perturb/BennettsMethod.cpp (C79).

Each replica is a process with one rank.  Simplified: a call of `sample` by all ranks is one round of
messages; files and parameters of the perturbation other than the differences are not modelled.
-/
import Verif.Cpp.Outcome
import Mathlib.MeasureTheory.Integral.Bochner.Basic
import Mathlib.Analysis.SpecialFunctions.Log.Basic
import Mathlib.Analysis.SpecialFunctions.Exp
import Mathlib.Algebra.BigOperators.Group.Finset.Basic
import Mathlib.Algebra.BigOperators.Intervals
import Mathlib.Tactic.Ring
import Mathlib.Tactic.Linarith
import Mathlib.Tactic.FieldSimp

set_option autoImplicit false

namespace Verif.FreeEnergy

open Verif.Cpp
open Verif.Cpp.Out

/-- Function of one argument, BennettsMethod.cpp:210,211,242,268. -/
noncomputable def fermi (t : ℝ) : ℝ := 1 / (1 + Real.exp t)

/-- `lowerId_`, BennettsMethod.cpp:64-68. -/
def lowerId (r : ℕ) : ℕ := if r ≠ 0 then r - 1 else r

/-- `upperId_`, BennettsMethod.cpp:69-73. -/
def upperId (n r : ℕ) : ℕ := if r ≠ n - 1 then r + 1 else r

/-- Values of a rank: its parameter `shift_`, and `shifts_` if allocated. -/
structure Rank where
  shift : ℝ
  shifts : Option (ℕ → ℝ)

/-- `readParameters`, BennettsMethod.cpp:83-101, for rank `r` of `n`: with a communicator for
parameters `shifts_` is read (and broadcast) without its last element, which is 0; without, only
`shift_`. -/
def readShifts (n : ℕ) (ioComm : Bool) (given : ℕ → ℝ) (r : ℕ) : Rank :=
  if ioComm then
    let v := fun i => if i = n - 1 then 0 else given i
    ⟨v r, some v⟩
  else ⟨given r, none⟩

/-- `setup`, BennettsMethod.cpp:169-182: broadcast of `shifts_` by rank 0, which is undefined if the
array is not allocated on a rank; the result is `lowerShift_` (kept for rank 0). -/
def setup (root me : Rank) (r : ℕ) (old : ℝ) : Out ℝ :=
  match root.shifts, me.shifts with
  | some v, some _ => ok (if r ≠ 0 then v (lowerId r) else old)
  | _, _ => ub

/-- A message. -/
structure Message where
  dst : ℕ
  tag : ℕ
  val : ℝ

/-- Message of rank `r`, BennettsMethod.cpp:205-217, 256-274: `diff r q` is the result of
`Perturbation::difference` on rank `r` for the parameters of rank `q`. -/
noncomputable def sends (n : ℕ) (diff : ℕ → ℕ → ℝ) (lowerShift : ℕ → ℝ) (r : ℕ) : Option Message :=
  if r ≠ 0 ∧ r ≠ n - 1 then some ⟨lowerId r, r % 2, fermi (diff r (lowerId r) + lowerShift r)⟩
  else if r = 0 then none
  else if r = n - 1 then some ⟨lowerId r, r % 2, fermi (diff r (lowerId r) + lowerShift r)⟩
  else none

/-- Source and tag of the message for which rank `r` waits, BennettsMethod.cpp:213-221, 244-248. -/
def awaits (n r : ℕ) : Option (ℕ × ℕ) :=
  if r ≠ 0 ∧ r ≠ n - 1 then some (upperId n r, upperId n r % 2)
  else if r = 0 then some (upperId n r, upperId n r % 2)
  else none

/-- `myFermi_`, BennettsMethod.cpp:204-210, 239-242. -/
noncomputable def myFermi (n : ℕ) (diff : ℕ → ℕ → ℝ) (shift : ℕ → ℝ) (r : ℕ) : ℝ :=
  fermi (diff r (upperId n r) - shift r)

/-- `upperFermi_` of rank `r` if the message for which it waits is sent. -/
noncomputable def upperFermi (n : ℕ) (diff : ℕ → ℕ → ℝ) (lowerShift : ℕ → ℝ) (r : ℕ) : Option ℝ :=
  match awaits n r with
  | none => none
  | some (src, tag) =>
    match (if src < n then sends n diff lowerShift src else none) with
    | none => none
    | some msg => if msg.dst = r ∧ msg.tag = tag then some msg.val else none

/-- `analyze`, BennettsMethod.cpp:278-293: `EnergyDiff` from the averages of both accumulators. -/
noncomputable def analyze (upper mine shift : ℝ) : ℝ := Real.log (upper / mine) + shift

/-- `LinearPerturbation::difference`, LinearPerturbation.h:92-101. -/
noncomputable def linearDifference (k : ℕ) (partner param deriv : ℕ → ℝ) : ℝ :=
  (List.range k).foldl (fun d i => d + (partner i - param i) * deriv i) 0

/-! ### Messages -/

/-- C79: with at least two ranks and parameters read together, `setup` succeeds, every rank but the
last receives the value of the next rank for the shift of this rank. -/
theorem C79_messages (n : ℕ) (diff : ℕ → ℕ → ℝ) (given old : ℕ → ℝ) (r : ℕ) (hr : r + 1 < n) :
    ∃ lower : ℕ → ℝ,
      (∀ q < n, setup (readShifts n true given 0) (readShifts n true given q) q (old q) =
        ok (lower q)) ∧
      upperFermi n diff lower r = some (1 / (1 + Real.exp (diff (r + 1) r + given r))) ∧
      myFermi n diff (fun q => (readShifts n true given q).shift) r =
        1 / (1 + Real.exp (diff r (r + 1) - given r)) := by
  refine ⟨fun q => if q ≠ 0 then (if lowerId q = n - 1 then 0 else given (lowerId q)) else old q,
    ?_, ?_, ?_⟩
  · intro q _
    simp [setup, readShifts]
  · have hu : upperId n r = r + 1 := by unfold upperId; rw [if_pos (by omega)]
    have ha : awaits n r = some (r + 1, (r + 1) % 2) := by
      unfold awaits
      rw [hu]
      by_cases h0 : r = 0
      · rw [if_neg (by tauto), if_pos h0]
      · rw [if_pos ⟨h0, by omega⟩]
    have hl : lowerId (r + 1) = r := by unfold lowerId; rw [if_pos (by omega)]; omega
    have hs : ∀ lower : ℕ → ℝ, sends n diff lower (r + 1) =
        some ⟨r, (r + 1) % 2, fermi (diff (r + 1) r + lower (r + 1))⟩ := by
      intro lower
      unfold sends
      rw [hl]
      by_cases h1 : r + 1 = n - 1
      · rw [if_neg (by tauto), if_neg (by omega), if_pos h1]
      · rw [if_pos ⟨by omega, h1⟩]
    unfold upperFermi
    rw [ha]
    dsimp only
    rw [if_pos hr, hs]
    dsimp only
    rw [if_pos ⟨rfl, rfl⟩, hl, if_pos (by omega), if_neg (by omega)]
    rfl
  · have hu : upperId n r = r + 1 := by unfold upperId; rw [if_pos (by omega)]
    unfold myFermi readShifts
    rw [hu]
    simp only [if_true]
    rw [if_neg (by omega)]
    rfl

/-- C79: no message is left over: each message is awaited by its receiver. -/
theorem C79_no_message_left (n : ℕ) (diff : ℕ → ℕ → ℝ) (lower : ℕ → ℝ) (q : ℕ) (hq : q < n)
    (msg : Message) (h : sends n diff lower q = some msg) :
    msg.dst < n ∧ awaits n msg.dst = some (q, msg.tag) := by
  have key : q ≠ 0 ∧ msg = ⟨lowerId q, q % 2, fermi (diff q (lowerId q) + lower q)⟩ := by
    unfold sends at h
    split_ifs at h with h1 h2 h3
    · exact ⟨h1.1, (Option.some.inj h).symm⟩
    · exact ⟨h2, (Option.some.inj h).symm⟩
  obtain ⟨h0, rfl⟩ := key
  have hl : lowerId q = q - 1 := by unfold lowerId; rw [if_pos h0]
  dsimp only
  rw [hl]
  refine ⟨by omega, ?_⟩
  have hu : upperId n (q - 1) = q := by unfold upperId; rw [if_pos (by omega)]; omega
  unfold awaits
  rw [hu]
  by_cases h1 : q - 1 = 0
  · rw [if_neg (by tauto), if_pos h1]
  · rw [if_pos ⟨h1, by omega⟩]

/-- C79: a single rank waits for a message that nobody sends. -/
theorem C79_single_violated (diff : ℕ → ℕ → ℝ) (lower : ℕ → ℝ) :
    awaits 1 0 = some (0, 0) ∧ upperFermi 1 diff lower 0 = none := by
  refine ⟨by decide, ?_⟩
  simp [upperFermi, awaits, upperId, sends]

/-- C79: with separate parameter files `setup` uses an array that is not allocated. -/
theorem C79_separate_violated (n : ℕ) (given : ℕ → ℝ) (q : ℕ) (old : ℝ) :
    setup (readShifts n false given 0) (readShifts n false given q) q old = ub := rfl

/-! ### Free energies -/

open MeasureTheory

/-- Mean of `f` with Boltzmann factor of the reduced energy `U`. -/
noncomputable def mean {Ω : Type} [MeasurableSpace Ω] (μ : Measure Ω) (U f : Ω → ℝ) : ℝ :=
  (∫ ω, Real.exp (-U ω) * f ω ∂μ) / ∫ ω, Real.exp (-U ω) ∂μ

/-- Reduced free energy. -/
noncomputable def freeEnergy {Ω : Type} [MeasurableSpace Ω] (μ : Measure Ω) (U : Ω → ℝ) : ℝ :=
  -Real.log (∫ ω, Real.exp (-U ω) ∂μ)

theorem fermi_pair (u v c : ℝ) :
    Real.exp (-v) * fermi (u - v + c) = Real.exp (-c) * (Real.exp (-u) * fermi (v - u - c)) := by
  unfold fermi
  have h1 : Real.exp (u - v + c) = Real.exp u * Real.exp c / Real.exp v := by
    rw [Real.exp_add, Real.exp_sub]; ring
  have h2 : Real.exp (v - u - c) = Real.exp v / (Real.exp u * Real.exp c) := by
    rw [Real.exp_sub, Real.exp_sub]; field_simp
  rw [h1, h2, Real.exp_neg, Real.exp_neg, Real.exp_neg]
  have hu := Real.exp_pos u
  have hv := Real.exp_pos v
  have hc := Real.exp_pos c
  field_simp
  ring

/-- C79: from exact averages, `analyze` gives the difference of free energies for every shift. -/
theorem C79_bennett {Ω : Type} [MeasurableSpace Ω] (μ : Measure Ω) (U V : Ω → ℝ) (c : ℝ)
    (hμ : μ ≠ 0) (hUm : Measurable U) (hVm : Measurable V)
    (hU : Integrable (fun ω => Real.exp (-U ω)) μ) (hV : Integrable (fun ω => Real.exp (-V ω)) μ) :
    analyze (mean μ V (fun ω => 1 / (1 + Real.exp ((U ω - V ω) + c))))
        (mean μ U (fun ω => 1 / (1 + Real.exp ((V ω - U ω) - c)))) c =
      freeEnergy μ V - freeEnergy μ U := by
  have pos : ∀ f : Ω → ℝ, (∀ ω, 0 < f ω) → Integrable f μ → 0 < ∫ ω, f ω ∂μ := by
    intro f hf hi
    rw [integral_pos_iff_support_of_nonneg (fun ω => (hf ω).le) hi]
    have : Function.support f = Set.univ := by
      ext ω; simp [(hf ω).ne']
    rw [this]
    exact (Measure.measure_univ_pos).2 hμ
  have hpU := pos _ (fun ω => Real.exp_pos (-U ω)) hU
  have hpV := pos _ (fun ω => Real.exp_pos (-V ω)) hV
  have hF : Integrable (fun ω => Real.exp (-U ω) * fermi (V ω - U ω - c)) μ := by
    refine hU.mono' ?_ ?_
    · unfold fermi
      exact (by fun_prop : Measurable fun ω => Real.exp (-U ω) * (1 / (1 + Real.exp (V ω - U ω - c)))).aestronglyMeasurable
    · refine Filter.Eventually.of_forall fun ω => ?_
      have h1 : 0 < fermi (V ω - U ω - c) := by unfold fermi; positivity
      have h2 : fermi (V ω - U ω - c) ≤ 1 := by
        unfold fermi
        rw [div_le_one (by positivity)]
        linarith [Real.exp_pos (V ω - U ω - c)]
      rw [Real.norm_eq_abs, abs_of_pos (by positivity)]
      nlinarith [Real.exp_pos (-U ω)]
  have hpF := pos _ (fun ω => mul_pos (Real.exp_pos (-U ω))
    (by unfold fermi; positivity : 0 < fermi (V ω - U ω - c))) hF
  have e1 : (∫ ω, Real.exp (-V ω) * (1 / (1 + Real.exp ((U ω - V ω) + c))) ∂μ) =
      Real.exp (-c) * ∫ ω, Real.exp (-U ω) * fermi (V ω - U ω - c) ∂μ := by
    rw [← integral_const_mul]
    refine integral_congr_ae (Filter.Eventually.of_forall fun ω => ?_)
    exact fermi_pair (U ω) (V ω) c
  unfold analyze mean freeEnergy
  rw [e1]
  change Real.log (_ / ((∫ ω, Real.exp (-U ω) * fermi (V ω - U ω - c) ∂μ) / _)) + c = _
  generalize (∫ ω, Real.exp (-U ω) * fermi (V ω - U ω - c) ∂μ) = A at *
  generalize (∫ ω, Real.exp (-U ω) ∂μ) = B at *
  generalize (∫ ω, Real.exp (-V ω) ∂μ) = D at *
  have : Real.exp (-c) * A / D / (A / B) = Real.exp (-c) * B / D := by
    field_simp
  rw [this, Real.log_div (by positivity) (by positivity), Real.log_mul (by positivity) (by positivity),
    Real.log_exp]
  ring

/-- C79: `LinearPerturbation::difference` is the difference of reduced energies linear in the
parameters. -/
theorem C79_linear (k : ℕ) (partner param deriv : ℕ → ℝ) (base : ℝ) :
    linearDifference k partner param deriv =
      (base + ∑ i ∈ Finset.range k, partner i * deriv i) -
        (base + ∑ i ∈ Finset.range k, param i * deriv i) := by
  unfold linearDifference
  have : ∀ n d, (List.range n).foldl (fun d i => d + (partner i - param i) * deriv i) d =
      d + ∑ i ∈ Finset.range n, (partner i - param i) * deriv i := by
    intro n
    induction n with
    | zero => simp
    | succ n ih =>
      intro d
      rw [List.range_succ, List.foldl_append, ih, Finset.sum_range_succ]
      simp only [List.foldl_cons, List.foldl_nil]; ring
  rw [this]
  simp only [sub_mul, Finset.sum_sub_distrib]
  ring

/-- C79: the values written by rank 0 sum to the difference between the last and the first replica. -/
theorem C79_total {Ω : Type} [MeasurableSpace Ω] (μ : Measure Ω) (n : ℕ) (W : ℕ → Ω → ℝ)
    (c : ℕ → ℝ) (hμ : μ ≠ 0) (hm : ∀ r, Measurable (W r))
    (hi : ∀ r, Integrable (fun ω => Real.exp (-W r ω)) μ) :
    ∑ r ∈ Finset.range n, analyze
        (mean μ (W (r + 1)) (fun ω => 1 / (1 + Real.exp ((W r ω - W (r + 1) ω) + c r))))
        (mean μ (W r) (fun ω => 1 / (1 + Real.exp ((W (r + 1) ω - W r ω) - c r)))) (c r) =
      freeEnergy μ (W n) - freeEnergy μ (W 0) := by
  rw [Finset.sum_congr rfl fun r _ =>
    C79_bennett μ (W r) (W (r + 1)) (c r) hμ (hm r) (hm _) (hi r) (hi _)]
  exact Finset.sum_range_sub (fun r => freeEnergy μ (W r)) n

/-- C79: after at least one sample the averages are positive, so that the logarithm is of a positive
number. -/
theorem C79_defined (l m : List ℝ) (hl : l ≠ []) (hm : m ≠ []) :
    0 < ((l.map fermi).sum / l.length) / ((m.map fermi).sum / m.length) := by
  have pos : ∀ l : List ℝ, l ≠ [] → 0 < (l.map fermi).sum / l.length := by
    intro l hl
    have h1 : 0 < (l.map fermi).sum := by
      cases l with
      | nil => exact absurd rfl hl
      | cons a l =>
        rw [List.map_cons, List.sum_cons]
        have : 0 ≤ (l.map fermi).sum := by
          refine List.sum_nonneg fun y hy => ?_
          obtain ⟨z, -, rfl⟩ := List.mem_map.1 hy
          unfold fermi; positivity
        have h : 0 < fermi a := by unfold fermi; positivity
        linarith
    have h2 : 0 < (l.length : ℝ) := by
      exact_mod_cast List.length_pos_iff.2 hl
    positivity
  have h1 := pos l hl
  have h2 := pos m hm
  positivity

end Verif.FreeEnergy
