/-
Samples of `McNVTChemicalPotential` (C78).
-/
import Verif.FreeEnergy.Model
import Mathlib.Algebra.BigOperators.Field
import Mathlib.Algebra.BigOperators.Intervals

set_option autoImplicit false

namespace Verif.FreeEnergy

variable {P : Type}

/-- Rosenbluth weight of an insertion: the product over atoms of the mean Boltzmann factor of their
trial positions. -/
noncomputable def weight (s : Widom P) (t : Insertion P) : ℝ :=
  ∏ k ∈ Finset.range s.nAtom,
    (∑ j ∈ Finset.range s.nTrial, Real.exp (-s.beta * s.energy k (t.chain k) (t.trial k j))) /
      s.nTrial

theorem foldl_add (f : ℕ → ℝ) (n : ℕ) (w : ℝ) :
    (List.range n).foldl (fun w j => w + f j) w = w + ∑ j ∈ Finset.range n, f j := by
  induction n with
  | zero => simp
  | succ n ih =>
    rw [List.range_succ, List.foldl_append, ih, Finset.sum_range_succ]
    simp only [List.foldl_cons, List.foldl_nil]; ring

theorem foldl_mul (f : ℕ → ℝ) (n : ℕ) (w : ℝ) :
    (List.range n).foldl (fun w j => w * f j) w = w * ∏ j ∈ Finset.range n, f j := by
  induction n with
  | zero => simp
  | succ n ih =>
    rw [List.range_succ, List.foldl_append, ih, Finset.prod_range_succ]
    simp only [List.foldl_cons, List.foldl_nil]; ring

theorem laterLoop_eq (s : Widom P) (t : Insertion P) (k : ℕ) :
    laterLoop s t k =
      ∑ j ∈ Finset.range s.nTrial, Real.exp (-s.beta * s.energy k (t.chain k) (t.trial k j)) := by
  unfold laterLoop
  rw [foldl_add, zero_add]
  rfl

theorem firstLoop_eq (s : Widom P) (l : Local P) :
    firstLoop s l = l.w + s.nTrial * Real.exp (-s.beta * s.energy 0 [] l.first) := by
  unfold firstLoop
  rw [foldl_add (fun _ => s.boltzmann (s.energy 0 [] l.first)), Finset.sum_const, Finset.card_range,
    nsmul_eq_mul]
  rfl

theorem rosenAt_eq (s : Widom P) (l : Local P) (t : Insertion P) (k : ℕ) :
    rosenAt s l t k = l.rosenbluth * ∏ i ∈ Finset.range k, stageW s l t i := foldl_mul _ _ _

/-- C78: what one insertion gives to the accumulator. -/
theorem C78_insert (s : Widom P) (l : Local P) (t : Insertion P) (hn : 3 ≤ s.nAtom) :
    (insertPass s l t).1 =
      l.rosenbluth * (l.w + s.nTrial * Real.exp (-s.beta * s.energy 0 [] l.first)) *
        (∏ k ∈ Finset.Ico 1 s.nAtom, ∑ j ∈ Finset.range s.nTrial,
          Real.exp (-s.beta * s.energy k (t.chain k) (t.trial k j))) / (s.nTrial : ℝ) ^ s.nAtom := by
  unfold insertPass
  dsimp only
  rw [rosenAt_eq, Finset.range_eq_Ico, Finset.prod_eq_prod_Ico_succ_bot (by omega)]
  have h0 : stageW s l t 0 = firstLoop s l := by unfold stageW; rw [if_pos rfl]
  rw [h0, firstLoop_eq, ← mul_assoc]
  congr 2
  refine Finset.prod_congr rfl fun k hk => ?_
  rw [Finset.mem_Ico] at hk
  unfold stageW
  rw [if_neg (by omega), laterLoop_eq]

/-- C78: the first sample of a call is the Rosenbluth weight if the first atom has at all trial
positions the energy that it has at its position in memory. -/
theorem C78_insert_first (s : Widom P) (first : P) (t : Insertion P) (ts : List (Insertion P))
    (hn : 3 ≤ s.nAtom)
    (h : ∀ j < s.nTrial, s.energy 0 [] (t.trial 0 j) = s.energy 0 [] first) :
    (widomSamples s first (t :: ts)).head? = some (weight s t) := by
  unfold widomSamples insertLoop
  rw [List.head?_cons, C78_insert s _ t hn]
  unfold weight
  dsimp only
  rw [Finset.prod_div_distrib, Finset.prod_const, Finset.card_range, one_mul, zero_add]
  conv_rhs => rw [Finset.range_eq_Ico, Finset.prod_eq_prod_Ico_succ_bot (by omega)]
  congr 3
  have hc : t.chain 0 = [] := rfl
  rw [hc, Finset.sum_congr rfl (g := fun _ => Real.exp (-s.beta * s.energy 0 [] first)),
    Finset.sum_const, Finset.card_range, nsmul_eq_mul]
  intro j hj
  rw [h j (by simpa using hj)]

/-- C78: every later sample contains the one before. -/
theorem C78_insert_next (s : Widom P) (l : Local P) (t u : Insertion P)
    (ts : List (Insertion P)) (hn : 3 ≤ s.nAtom) :
    insertLoop s l (t :: u :: ts) =
      (insertPass s l t).1 ::
      ((insertPass s l t).1 *
        ((∑ j ∈ Finset.range s.nTrial, Real.exp
            (-s.beta * s.energy (s.nAtom - 1) (t.chain (s.nAtom - 1)) (t.trial (s.nAtom - 1) j))) +
          s.nTrial * Real.exp (-s.beta * s.energy 0 [] (t.trial 0 (t.chosen 0)))) *
        (∏ k ∈ Finset.Ico 1 s.nAtom, ∑ j ∈ Finset.range s.nTrial,
          Real.exp (-s.beta * s.energy k (u.chain k) (u.trial k j))) / (s.nTrial : ℝ) ^ s.nAtom) ::
      insertLoop s (insertPass s (insertPass s l t).2 u).2 ts := by
  rw [insertLoop, insertLoop, C78_insert s _ u hn]
  have h1 : (insertPass s l t).2.rosenbluth = (insertPass s l t).1 := rfl
  have h2 : (insertPass s l t).2.w = laterLoop s t (s.nAtom - 1) := by
    show stageW s l t (s.nAtom - 1) = _
    unfold stageW
    rw [if_neg (by omega)]
  have h3 : (insertPass s l t).2.first = t.trial 0 (t.chosen 0) := rfl
  rw [h1, h2, h3, laterLoop_eq]

theorem ideal_pass (s : Widom P) (l : Local P) (t : Insertion P) (hn : 3 ≤ s.nAtom)
    (hT : 0 < s.nTrial) (h : ∀ k ps r, s.energy k ps r = 0) :
    (insertPass s l t).1 = l.rosenbluth * (l.w + s.nTrial) / s.nTrial ∧
      (insertPass s l t).2.w = s.nTrial := by
  have hT' : (s.nTrial : ℝ) ≠ 0 := by positivity
  have hs : ∀ k, laterLoop s t k = s.nTrial := by
    intro k; rw [laterLoop_eq]; simp [h]
  refine ⟨?_, ?_⟩
  · rw [C78_insert s l t hn]
    simp only [h, mul_zero, Real.exp_zero, mul_one, Finset.sum_const, Finset.card_range,
      nsmul_eq_mul, Finset.prod_const, Nat.card_Ico]
    obtain ⟨n, hn'⟩ : ∃ n, s.nAtom = n + 1 := ⟨s.nAtom - 1, by omega⟩
    rw [hn', Nat.add_sub_cancel, pow_succ]
    field_simp
  · show stageW s l t (s.nAtom - 1) = _
    unfold stageW
    rw [if_neg (by omega), hs]

theorem ideal_loop (s : Widom P) (hn : 3 ≤ s.nAtom) (hT : 0 < s.nTrial)
    (h : ∀ k ps r, s.energy k ps r = 0) (ts : List (Insertion P)) (l : Local P)
    (hw : l.w = s.nTrial) :
    insertLoop s l ts = (List.range ts.length).map (fun i => l.rosenbluth * 2 ^ (i + 1)) := by
  have hT' : (s.nTrial : ℝ) ≠ 0 := by positivity
  induction ts generalizing l with
  | nil => rfl
  | cons t ts ih =>
    obtain ⟨h1, h2⟩ := ideal_pass s l t hn hT h
    have h3 : (insertPass s l t).2.rosenbluth = (insertPass s l t).1 := rfl
    have h4 : (insertPass s l t).1 = l.rosenbluth * 2 := by
      rw [h1, hw]; field_simp; ring
    rw [insertLoop, ih _ h2, List.length_cons, List.range_succ_eq_map, List.map_cons, List.map_map,
      h3, h4]
    congr 1
    · norm_num
    · refine List.map_congr_left fun i _ => ?_
      simp only [Function.comp, Nat.succ_eq_add_one]
      ring

/-- C78: without interactions all weights are 1, while the samples are the powers of 2. -/
theorem C78_insert_ideal_violated (s : Widom P) (first : P) (ts : List (Insertion P))
    (hn : 3 ≤ s.nAtom) (hT : 0 < s.nTrial) (h : ∀ k ps r, s.energy k ps r = 0) :
    widomSamples s first ts = (List.range ts.length).map (fun i => 2 ^ i) ∧
      ∀ t ∈ ts, weight s t = 1 := by
  have hT' : (s.nTrial : ℝ) ≠ 0 := by positivity
  constructor
  · unfold widomSamples
    cases ts with
    | nil => rfl
    | cons t ts =>
      obtain ⟨h1, h2⟩ := ideal_pass s ⟨0, 1, first⟩ t hn hT h
      have h4 : (insertPass s ⟨0, 1, first⟩ t).1 = 1 := by
        rw [h1]; field_simp; simp
      have h3 : (insertPass s ⟨0, 1, first⟩ t).2.rosenbluth =
        (insertPass s ⟨0, 1, first⟩ t).1 := rfl
      rw [insertLoop, ideal_loop s hn hT h _ _ h2, List.length_cons, List.range_succ_eq_map,
        List.map_cons, List.map_map, h3, h4]
      simp
  · intro t _
    unfold weight
    simp [h, hT']

/-- C78: probabilities given to `drawFrom` sum to one from the fourth atom on; before, to the ratio of
the weight of the atom to the product of those of the earlier atoms. -/
theorem C78_probs (s : Widom P) (l : Local P) (t : Insertion P) (k : ℕ) :
    (∑ j ∈ Finset.range s.nTrial, trialProb s l t k j) =
      if k = 0 then s.nTrial * Real.exp (-s.beta * s.energy 0 [] l.first) / l.rosenbluth
      else if k < 3 then
        (∑ j ∈ Finset.range s.nTrial, Real.exp (-s.beta * s.energy k (t.chain k) (t.trial k j))) /
          rosenAt s l t k
      else if s.nTrial = 0 then 0 else 1 := by
  unfold trialProb
  rw [← Finset.sum_div]
  by_cases h0 : k = 0
  · subst h0
    rw [if_pos rfl, if_pos (by omega)]
    simp only [if_true, Finset.sum_const, Finset.card_range, nsmul_eq_mul]
    rfl
  · simp only [if_neg h0]
    by_cases h3 : k < 3
    · rw [if_pos h3, if_pos h3]; rfl
    · rw [if_neg h3, if_neg h3, laterLoop_eq]
      by_cases hT : s.nTrial = 0
      · rw [if_pos hT, hT]; simp
      · rw [if_neg hT]
        refine div_self (ne_of_gt ?_)
        exact Finset.sum_pos (fun _ _ => Real.exp_pos _) ⟨0, Finset.mem_range.2 (by omega)⟩

end Verif.FreeEnergy
