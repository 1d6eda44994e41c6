/-
Non-vacuity and disagreements for the analyzers of free energies (C78, C79).
-/
import Verif.FreeEnergy.Exchange
import Verif.FreeEnergy.Insert
import Verif.FreeEnergy.Bennett
import Mathlib.MeasureTheory.Measure.Count
import Mathlib.MeasureTheory.Integral.Bochner.SumMeasure
import Mathlib.Tactic.NormNum

set_option autoImplicit false

namespace Verif.FreeEnergy

/-! ### McMuExchange -/

/-- Four atoms in two molecules; the energy of a pair is the product of the types. -/
noncomputable def sys4 (type : ℕ → ℕ) : System where
  type := type
  mol a := a / 2
  masked _ _ := False
  rsq _ _ := 1
  neighbors _ := [0, 1, 2, 3]
  energy _ t u := t * u

/-- Both atoms of molecules become type 2 from type 1. -/
def exch2 : Exchange := ⟨2, fun _ => 2, fun _ => 1⟩

theorem fits4 : Fits (sys4 (fun _ => 1)) exch2 {0, 1, 2, 3} 1 2 where
  mol a ha := by
    simp only [Finset.mem_insert, Finset.mem_singleton] at ha
    rcases ha with rfl | rfl | rfl | rfl <;> simp [sys4, exch2]
  mem i hi := by
    have : i < 2 := hi
    simp only [Finset.mem_insert, Finset.mem_singleton]; omega
  type _ _ := rfl
  mask _ _ := Iff.rfl
  rsq _ _ := rfl
  energy _ t u := mul_comm (t : ℝ) u
  nodup _ _ := by simp [sys4]
  sub _ _ b hb := by simpa [sys4] using hb
  far _ _ b hb hn := absurd (by simpa [sys4] using hb) hn

/-- Non-vacuity of `C78_exchange`: the difference is not zero. -/
example : Fits (sys4 (fun _ => 1)) exch2 {0, 1, 2, 3} 1 2 ∧
    deltaE (sys4 (fun _ => 1)) exch2 2 = 7 := by
  refine ⟨fits4, ?_⟩
  have hf : exch2.flipIds = [0, 1] := by decide
  unfold deltaE
  rw [hf]
  simp only [List.foldl, sys4, neighborPass, Exchange.flipped, exch2]
  norm_num

/-- Molecules of which only the first atom is exchanged. -/
def exch1 : Exchange := ⟨2, fun i => if i = 0 then 2 else 1, fun _ => 1⟩

/-- C78: for a mutable species, whose second atom is not of the type of the species, the difference is
neither that to the new types, nor that to the new type of the first atom alone. -/
theorem C78_exchange_mutable_violated :
    ∃ (x : System) (p : Exchange) (atoms : Finset ℕ) (a0 : ℕ),
      (∃ type : ℕ → ℕ, Fits { x with type := type } p atoms 1 a0) ∧
      deltaE x p a0 ≠ pairEnergy x atoms (exchanged x p a0) - pairEnergy x atoms x.type ∧
      deltaE x p a0 ≠
        pairEnergy x atoms (fun a => if isFlip p a0 a then p.new (a - a0) else x.type a) -
          pairEnergy x atoms x.type := by
  have hf : exch1.flipIds = [0] := by decide
  have hd : deltaE (sys4 (fun a => if a = 3 then 4 else 1)) exch1 2 = 0 := by
    unfold deltaE
    rw [hf]
    simp only [List.foldl, sys4, neighborPass, Exchange.flipped, exch1]
    norm_num
  have hp : ∀ ty ty' : ℕ → ℕ, pairEnergy (sys4 ty) {0, 1, 2, 3} ty' =
      (ty' 0 * ty' 1 : ℝ) + ty' 0 * ty' 2 + ty' 0 * ty' 3 + ty' 1 * ty' 2 + ty' 1 * ty' 3 +
        ty' 2 * ty' 3 := by
    intro ty ty'
    simp [pairEnergy, sys4, Finset.sum_filter]
    ring
  refine ⟨sys4 (fun a => if a = 3 then 4 else 1), exch1, {0, 1, 2, 3}, 2, ⟨fun _ => 1, ?_⟩, ?_, ?_⟩
  · constructor
    · intro a ha
      simp only [Finset.mem_insert, Finset.mem_singleton] at ha
      rcases ha with rfl | rfl | rfl | rfl <;> simp [sys4, exch1]
    · intro i hi
      have : i < 2 := hi
      simp only [Finset.mem_insert, Finset.mem_singleton]; omega
    · exact fun _ _ => rfl
    · exact fun _ _ => Iff.rfl
    · exact fun _ _ => rfl
    · exact fun _ t u => mul_comm (t : ℝ) u
    · intro a _; simp [sys4]
    · intro a _ b hb; simpa [sys4] using hb
    · intro a _ b hb hn; exact absurd (by simpa [sys4] using hb) hn
  · rw [hd, hp, hp]
    simp [exchanged, exch1, sys4]
    norm_num
  · rw [hd, hp, hp]
    simp [isFlip, Exchange.flipped, exch1, sys4]
    norm_num

/-! ### McNVTChemicalPotential -/

/-- A molecule of three atoms and two trials; only the first atom has energy, at `true`. -/
noncomputable def widom3 : Widom Bool :=
  ⟨2, 3, 1, fun k _ r => if k = 0 ∧ r = true then Real.log 2 else 0⟩

/-- All trial positions of the first atom are `true`. -/
def ins3 : Insertion Bool := ⟨fun _ _ => true, fun _ => 0⟩

/-- Non-vacuity of `C78_insert_first`, with a weight that is not 1. -/
example : (∀ j < widom3.nTrial, widom3.energy 0 [] (ins3.trial 0 j) = widom3.energy 0 [] true) ∧
    weight widom3 ins3 = 1 / 2 := by
  refine ⟨fun _ _ => rfl, ?_⟩
  have h2 : Real.exp (-Real.log 2) = 1 / 2 := by
    rw [Real.exp_neg, Real.exp_log (by norm_num)]; norm_num
  simp [weight, widom3, ins3, Finset.prod_range_succ, h2]

/-- C78: the first sample is not the weight if the first atom is elsewhere in memory. -/
theorem C78_insert_stale_violated :
    ∃ (s : Widom Bool) (t : Insertion Bool) (first : Bool), 3 ≤ s.nAtom ∧ 0 < s.nTrial ∧
      widomSamples s first [t] = [1] ∧ weight s t = 1 / 2 := by
  have h2 : Real.exp (-Real.log 2) = 1 / 2 := by
    rw [Real.exp_neg, Real.exp_log (by norm_num)]; norm_num
  refine ⟨widom3, ins3, false, le_rfl, by norm_num [widom3], ?_, ?_⟩
  · unfold widomSamples insertLoop insertLoop
    rw [C78_insert _ _ _ le_rfl]
    have : Finset.Ico 1 3 = {1, 2} := by decide
    simp [widom3, ins3, this]
    norm_num
  · simp [weight, widom3, ins3, Finset.prod_range_succ, h2]

/-- C78: the second atom is chosen with numbers that do not sum to one (here each is 1/2 only if the
first atom is at zero energy; at `true` in memory they sum to 2). -/
theorem C78_probs_violated :
    ∃ (s : Widom Bool) (t : Insertion Bool) (first : Bool), 0 < s.nTrial ∧
      (∑ j ∈ Finset.range s.nTrial, trialProb s ⟨0, 1, first⟩ t 0 j) = 2 ∧
      (∑ j ∈ Finset.range s.nTrial, trialProb s ⟨0, 1, !first⟩ t 1 j) = 2 := by
  have h2 : Real.exp (-Real.log 2) = 1 / 2 := by
    rw [Real.exp_neg, Real.exp_log (by norm_num)]; norm_num
  refine ⟨widom3, ins3, false, by norm_num [widom3], ?_, ?_⟩
  · rw [C78_probs, if_pos rfl]
    simp [widom3]
  · rw [C78_probs, if_neg (by norm_num), if_pos (by norm_num), rosenAt_eq]
    simp [widom3, stageW, firstLoop_eq, h2]

/-- Non-vacuity of `C78_insert_ideal_violated`. -/
example : (∀ (k : ℕ) (ps : List Unit) (r : Unit), (⟨2, 3, 1, fun _ _ _ => 0⟩ : Widom Unit).energy k ps r = 0) :=
  fun _ _ _ => rfl

/-! ### BennettsMethod -/

open MeasureTheory

/-- Non-vacuity of `C79_bennett`: two states, and energies that differ. -/
example : (Measure.count : Measure Bool) ≠ 0 ∧
    Integrable (fun ω : Bool => Real.exp (-(if ω then (1 : ℝ) else 0))) Measure.count ∧
    freeEnergy Measure.count (fun ω : Bool => if ω then (1 : ℝ) else 0) = -Real.log (Real.exp (-1) + 1) := by
  refine ⟨?_, Integrable.of_finite, ?_⟩
  · intro h
    have := congrArg (fun m => m Set.univ) h
    simp at this
    exact (Set.insert_nonempty _ _).ne_empty this
  · unfold freeEnergy
    rw [integral_fintype Integrable.of_finite]
    simp

/-- Non-vacuity of `C79_messages` and `C79_no_message_left`: three ranks. -/
example : (1 : ℕ) + 1 < 3 ∧ ∃ msg, sends 3 (fun _ _ => 0) (fun _ => 0) 2 = some msg :=
  ⟨by norm_num, _, rfl⟩

end Verif.FreeEnergy
