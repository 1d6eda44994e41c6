/-
Probabilities of the permutations drawn by rank 0.
-/
import Verif.Replica.Run
import Verif.McMoves.Measure
import Mathlib.Algebra.BigOperators.Intervals
import Mathlib.Analysis.SpecialFunctions.Exp
import Mathlib.Data.Finset.Prod
import Mathlib.Tactic.Linarith

set_option autoImplicit false

namespace Verif.Replica

open Verif.Cpp Verif.Cpp.Out Verif.McMoves MeasureTheory
open scoped ENNReal

/-- One if a condition holds, else zero. -/
noncomputable def ind (P : Prop) : ℝ≥0∞ := by classical exact if P then 1 else 0

theorem ind_pos {P : Prop} (h : P) : ind P = 1 := by unfold ind; exact if_pos h

theorem ind_neg {P : Prop} (h : ¬ P) : ind P = 0 := by unfold ind; exact if_neg h

theorem ind_congr {P Q : Prop} (h : P ↔ Q) : ind P = ind Q := by rw [propext h]

/-- Reduced energy of replicas with derivatives `der` if replica `i` has the parameters
of rank `σ i`. -/
noncomputable def energy (n nPar : ℕ) (der par : ℕ → List ℝ) (σ : ℕ → ℕ) : ℝ :=
  ∑ i ∈ Finset.range n, ∑ k ∈ Finset.range nPar, at' (par (σ i)) k * at' (der i) k

theorem weight_sum (nPar : ℕ) (der par : ℕ → List ℝ) (σ : ℕ → ℕ) (i j : ℕ) :
    weight nPar der par σ i j = ∑ k ∈ Finset.range nPar,
      (at' (par (σ j)) k - at' (par (σ i)) k) * (at' (der i) k - at' (der j) k) := by
  unfold weight
  induction nPar with
  | zero => rfl
  | succ m ih => rw [List.range_succ, List.foldl_append, ih, Finset.sum_range_succ]; rfl

/-- The weight of an attempt is the change of energy. -/
theorem weight_energy {n : ℕ} (nPar : ℕ) (der par : ℕ → List ℝ) (σ : Equiv.Perm ℕ) {i j : ℕ}
    (hi : i < n) (hj : j < n) (hne : i ≠ j) :
    weight nPar der par σ i j =
      energy n nPar der par ⇑(σ * Equiv.swap i j) - energy n nPar der par σ := by
  rw [weight_sum]
  unfold energy
  have hsub : ({i, j} : Finset ℕ) ⊆ Finset.range n := by
    intro x hx
    rw [Finset.mem_insert, Finset.mem_singleton] at hx
    rw [Finset.mem_range]
    rcases hx with rfl | rfl <;> assumption
  rw [← Finset.sum_sub_distrib, ← Finset.sum_subset hsub]
  · rw [Finset.sum_pair hne, ← Finset.sum_sub_distrib, ← Finset.sum_sub_distrib,
      ← Finset.sum_add_distrib]
    refine Finset.sum_congr rfl fun k _ => ?_
    rw [Equiv.Perm.mul_apply, Equiv.Perm.mul_apply, Equiv.swap_apply_left, Equiv.swap_apply_right]
    ring
  · intro x _ hx
    rw [Finset.mem_insert, Finset.mem_singleton, not_or] at hx
    rw [Equiv.Perm.mul_apply, Equiv.swap_apply_of_ne_of_ne hx.1 hx.2, sub_self]

/-! ### Transition probabilities -/

/-- Ordered pairs of different ranks. -/
def pairs (n : ℕ) : Finset (ℕ × ℕ) := (Finset.range n).offDiag

/-- Probability of accepting an exchange. -/
noncomputable def acc (nPar : ℕ) (der par : ℕ → List ℝ) (σ : Equiv.Perm ℕ) (p : ℕ × ℕ) : ℝ≥0∞ :=
  ENNReal.ofReal (min 1 (Real.exp (-weight nPar der par σ p.1 p.2)))

theorem acc_le_one (nPar : ℕ) (der par : ℕ → List ℝ) (σ : Equiv.Perm ℕ) (p : ℕ × ℕ) :
    acc nPar der par σ p ≤ 1 := by
  unfold acc
  rw [← ENNReal.ofReal_one]
  exact ENNReal.ofReal_le_ofReal (min_le_left _ _)

/-- Probability of a pair. -/
noncomputable def pairProb (n : ℕ) : ℝ≥0∞ := ((n * (n - 1) : ℕ) : ℝ≥0∞)⁻¹

/-- Probability that `m` attempts lead from `σ` to `τ`. -/
noncomputable def kern (n nPar : ℕ) (der par : ℕ → List ℝ) :
    ℕ → Equiv.Perm ℕ → Equiv.Perm ℕ → ℝ≥0∞
  | 0, σ, τ => ind (σ = τ)
  | m + 1, σ, τ => ∑ p ∈ pairs n, pairProb n *
      (acc nPar der par σ p * kern n nPar der par m (σ * Equiv.swap p.1 p.2) τ
        + (1 - acc nPar der par σ p) * kern n nPar der par m σ τ)

/-- The same, split at the last attempt. -/
theorem kern_last (n nPar : ℕ) (der par : ℕ → List ℝ) (m : ℕ) (σ τ : Equiv.Perm ℕ) :
    kern n nPar der par (m + 1) σ τ = ∑ p ∈ pairs n, pairProb n *
      (acc nPar der par (τ * Equiv.swap p.1 p.2) p *
          kern n nPar der par m σ (τ * Equiv.swap p.1 p.2)
        + (1 - acc nPar der par τ p) * kern n nPar der par m σ τ) := by
  induction m generalizing σ τ with
  | zero =>
    rw [kern]
    refine Finset.sum_congr rfl fun p _ => ?_
    congr 2
    · by_cases h : σ * Equiv.swap p.1 p.2 = τ
      · have h' : σ = τ * Equiv.swap p.1 p.2 := by
          rw [← h, mul_assoc, Equiv.swap_mul_self, mul_one]
        rw [← h', kern, kern, ind_pos h, ind_pos rfl]
      · have h' : σ ≠ τ * Equiv.swap p.1 p.2 := by
          intro e; apply h; rw [e, mul_assoc, Equiv.swap_mul_self, mul_one]
        rw [kern, kern, ind_neg h, ind_neg h', mul_zero, mul_zero]
    · by_cases h : σ = τ
      · rw [h, kern]
      · rw [kern, ind_neg h, mul_zero, mul_zero]
  | succ m ih =>
    rw [kern]
    have e1 : ∀ p ∈ pairs n, pairProb n *
        (acc nPar der par σ p * kern n nPar der par (m + 1) (σ * Equiv.swap p.1 p.2) τ
        + (1 - acc nPar der par σ p) * kern n nPar der par (m + 1) σ τ) =
        ∑ q ∈ pairs n, pairProb n * (pairProb n *
        (acc nPar der par σ p * (acc nPar der par (τ * Equiv.swap q.1 q.2) q *
          kern n nPar der par m (σ * Equiv.swap p.1 p.2) (τ * Equiv.swap q.1 q.2)
        + (1 - acc nPar der par τ q) * kern n nPar der par m (σ * Equiv.swap p.1 p.2) τ)
        + (1 - acc nPar der par σ p) * (acc nPar der par (τ * Equiv.swap q.1 q.2) q *
          kern n nPar der par m σ (τ * Equiv.swap q.1 q.2)
        + (1 - acc nPar der par τ q) * kern n nPar der par m σ τ))) := by
      intro p _
      rw [ih (σ * Equiv.swap p.1 p.2) τ, ih σ τ, Finset.mul_sum, Finset.mul_sum,
        ← Finset.sum_add_distrib, Finset.mul_sum]
      refine Finset.sum_congr rfl fun q _ => ?_
      ring
    rw [Finset.sum_congr rfl e1, Finset.sum_comm]
    refine Finset.sum_congr rfl fun q _ => ?_
    rw [kern, kern, ← Finset.mul_sum, Finset.mul_sum (a := acc _ _ _ _ _), Finset.mul_sum (a := 1 - acc _ _ _ _ _),
      ← Finset.sum_add_distrib]
    congr 1
    refine Finset.sum_congr rfl fun p _ => ?_
    ring

theorem acc_balance {n : ℕ} (nPar : ℕ) (der par : ℕ → List ℝ) (σ : Equiv.Perm ℕ) {p : ℕ × ℕ}
    (hp : p ∈ pairs n) :
    ENNReal.ofReal (Real.exp (-energy n nPar der par σ)) * acc nPar der par σ p =
      ENNReal.ofReal (Real.exp (-energy n nPar der par ⇑(σ * Equiv.swap p.1 p.2))) *
        acc nPar der par (σ * Equiv.swap p.1 p.2) p := by
  unfold pairs at hp
  rw [Finset.mem_offDiag, Finset.mem_range, Finset.mem_range] at hp
  obtain ⟨h1, h2, h3⟩ := hp
  unfold acc
  rw [weight_energy nPar der par σ h1 h2 h3,
    weight_energy nPar der par (σ * Equiv.swap p.1 p.2) h1 h2 h3, mul_assoc, Equiv.swap_mul_self,
    mul_one]
  have := balance_min (Real.exp_pos (-energy n nPar der par σ))
    (Real.exp_pos (-energy n nPar der par ⇑(σ * Equiv.swap p.1 p.2)))
  rw [← Real.exp_sub, ← Real.exp_sub] at this
  rw [show -(energy n nPar der par ⇑(σ * Equiv.swap p.1 p.2) - energy n nPar der par σ) =
      -energy n nPar der par ⇑(σ * Equiv.swap p.1 p.2) - -energy n nPar der par σ by ring,
    show -(energy n nPar der par σ - energy n nPar der par ⇑(σ * Equiv.swap p.1 p.2)) =
      -energy n nPar der par σ - -energy n nPar der par ⇑(σ * Equiv.swap p.1 p.2) by ring]
  exact this

/-- Detailed balance of any number of attempts. -/
theorem kern_balance (n nPar : ℕ) (der par : ℕ → List ℝ) (m : ℕ) (σ τ : Equiv.Perm ℕ) :
    ENNReal.ofReal (Real.exp (-energy n nPar der par σ)) * kern n nPar der par m σ τ =
      ENNReal.ofReal (Real.exp (-energy n nPar der par τ)) * kern n nPar der par m τ σ := by
  induction m generalizing σ τ with
  | zero =>
    by_cases h : σ = τ
    · rw [h]
    · rw [kern, kern, ind_neg h, ind_neg (Ne.symm h), mul_zero, mul_zero]
  | succ m ih =>
    rw [kern_last n nPar der par m τ σ, kern, Finset.mul_sum, Finset.mul_sum]
    refine Finset.sum_congr rfl fun p hp => ?_
    have e1 := acc_balance nPar der par σ hp
    have e2 := ih (σ * Equiv.swap p.1 p.2) τ
    have e3 := ih σ τ
    set A := ENNReal.ofReal (Real.exp (-energy n nPar der par σ))
    set B := ENNReal.ofReal (Real.exp (-energy n nPar der par τ))
    set C := ENNReal.ofReal (Real.exp (-energy n nPar der par ⇑(σ * Equiv.swap p.1 p.2)))
    calc A * (pairProb n * (acc nPar der par σ p *
            kern n nPar der par m (σ * Equiv.swap p.1 p.2) τ
          + (1 - acc nPar der par σ p) * kern n nPar der par m σ τ))
        = pairProb n * ((A * acc nPar der par σ p) *
            kern n nPar der par m (σ * Equiv.swap p.1 p.2) τ
          + (1 - acc nPar der par σ p) * (A * kern n nPar der par m σ τ)) := by ring
      _ = pairProb n * (acc nPar der par (σ * Equiv.swap p.1 p.2) p *
            (C * kern n nPar der par m (σ * Equiv.swap p.1 p.2) τ)
          + (1 - acc nPar der par σ p) * (A * kern n nPar der par m σ τ)) := by rw [e1]; ring
      _ = _ := by rw [e2, e3]; ring

/-- Relabelling of replicas. -/
theorem kern_relabel {n : ℕ} (nPar : ℕ) (der der' par : ℕ → List ℝ) {ρ : Equiv.Perm ℕ}
    (hρ : Fixes n ρ) (hder : ∀ i, i < n → der' (ρ i) = der i) (m : ℕ) (σ τ : Equiv.Perm ℕ) :
    kern n nPar der' par m σ τ = kern n nPar der par m (σ * ρ) (τ * ρ) := by
  induction m generalizing σ with
  | zero => rw [kern, kern]; exact ind_congr (by simp)
  | succ m ih =>
    rw [kern, kern]
    refine Finset.sum_nbij' (fun p => (ρ⁻¹ p.1, ρ⁻¹ p.2)) (fun p => (ρ p.1, ρ p.2)) ?_ ?_ ?_ ?_ ?_
    · intro p hp
      simp only [pairs, Finset.mem_offDiag, Finset.mem_range] at hp ⊢
      exact ⟨hρ.inv.lt hp.1, hρ.inv.lt hp.2.1, fun h => hp.2.2 (ρ⁻¹.injective h)⟩
    · intro p hp
      simp only [pairs, Finset.mem_offDiag, Finset.mem_range] at hp ⊢
      exact ⟨hρ.lt hp.1, hρ.lt hp.2.1, fun h => hp.2.2 (ρ.injective h)⟩
    · intro p _; simp
    · intro p _; simp
    · intro p hp
      simp only [pairs, Finset.mem_offDiag, Finset.mem_range] at hp
      obtain ⟨i, j⟩ := p
      dsimp only at hp ⊢
      have hi := hρ.inv.lt hp.1
      have hj := hρ.inv.lt hp.2.1
      have ei : ρ (ρ⁻¹ i) = i := ρ.apply_symm_apply i
      have ej : ρ (ρ⁻¹ j) = j := ρ.apply_symm_apply j
      generalize ρ⁻¹ i = i' at *
      generalize ρ⁻¹ j = j' at *
      subst ei; subst ej
      have e1 : acc nPar der' par σ (ρ i', ρ j') = acc nPar der par (σ * ρ) (i', j') := by
        unfold acc
        dsimp only
        rw [weight_sum, weight_sum, hder i' hi, hder j' hj]
        rfl
      have e2 : σ * Equiv.swap (ρ i') (ρ j') * ρ = σ * ρ * Equiv.swap i' j' := by
        rw [mul_assoc, mul_assoc, Equiv.swap_apply_apply]
        simp [mul_assoc]
      rw [e1, ih, ih, e2]

/-! ### Probabilities of the program -/

/-- Probability of an event for `m` independent draws: `i` uniform below `n`, `j` uniform
below `n - 1`, and a uniform deviate in [0,1). -/
noncomputable def drawProb (n : ℕ) : ℕ → (List Draw → Prop) → ℝ≥0∞
  | 0, Q => ind (Q [])
  | m + 1, Q => ∑ i ∈ Finset.range n, ∑ j ∈ Finset.range (n - 1), pairProb n *
      ∫⁻ v in Set.Ico (0 : ℝ) 1, drawProb n m (fun ds => Q (⟨i, j, v⟩ :: ds))

theorem drawProb_congr {n : ℕ} (m : ℕ) {Q Q' : List Draw → Prop}
    (h : ∀ ds : List Draw, (∀ d ∈ ds, d.i < n ∧ d.j < n - 1 ∧ 0 ≤ d.v ∧ d.v < 1) → (Q ds ↔ Q' ds)) :
    drawProb n m Q = drawProb n m Q' := by
  induction m generalizing Q Q' with
  | zero =>
    unfold drawProb
    exact ind_congr (h [] (by simp))
  | succ m ih =>
    unfold drawProb
    refine Finset.sum_congr rfl fun i hi => Finset.sum_congr rfl fun j hj => ?_
    congr 1
    refine setLIntegral_congr_fun measurableSet_Ico fun v hv => ?_
    refine ih fun ds hds => h _ ?_
    intro d hd
    rcases List.mem_cons.1 hd with rfl | hd
    · exact ⟨Finset.mem_range.1 hi, Finset.mem_range.1 hj, hv.1, hv.2⟩
    · exact hds d hd

/-- Draws and ordered pairs. -/
theorem sum_draws (n : ℕ) (f : ℕ × ℕ → ℝ≥0∞) :
    ∑ i ∈ Finset.range n, ∑ j ∈ Finset.range (n - 1), f (i, if i ≤ j then j + 1 else j) =
      ∑ p ∈ pairs n, f p := by
  rw [← Finset.sum_product']
  refine Finset.sum_nbij' (fun p : ℕ × ℕ => (p.1, if p.1 ≤ p.2 then p.2 + 1 else p.2))
    (fun p : ℕ × ℕ => (p.1, if p.1 < p.2 then p.2 - 1 else p.2)) ?_ ?_ ?_ ?_ ?_
  · rintro ⟨i, j⟩ hp
    simp only [Finset.mem_product, Finset.mem_range] at hp
    simp only [pairs, Finset.mem_offDiag, Finset.mem_range]
    split <;> omega
  · rintro ⟨i, j⟩ hp
    simp only [pairs, Finset.mem_offDiag, Finset.mem_range] at hp
    simp only [Finset.mem_product, Finset.mem_range]
    split <;> omega
  · rintro ⟨i, j⟩ hp
    simp only [Prod.mk.injEq, true_and]
    split_ifs <;> omega
  · rintro ⟨i, j⟩ hp
    simp only [pairs, Finset.mem_offDiag, Finset.mem_range] at hp
    simp only [Prod.mk.injEq, true_and]
    split_ifs <;> omega
  · rintro ⟨i, j⟩ _
    rfl

/-- Integral of a function with two values. -/
theorem lintegral_two {α : ℝ} (h0 : 0 ≤ α) (A B : ℝ≥0∞) (f : ℝ → ℝ≥0∞)
    (hf : ∀ v, 0 ≤ v → v < 1 → f v = if metropolis α v = true then A else B) :
    ∫⁻ v in Set.Ico (0 : ℝ) 1, f v =
      ENNReal.ofReal (min 1 α) * A + (1 - ENNReal.ofReal (min 1 α)) * B := by
  have hm : min 1 α ≤ 1 := min_le_left _ _
  have hm0 : 0 ≤ min 1 α := le_min zero_le_one h0
  have hsplit : Set.Ico (0 : ℝ) 1 = Set.Ico 0 (min 1 α) ∪ Set.Ico (min 1 α) 1 :=
    (Set.Ico_union_Ico_eq_Ico hm0 hm).symm
  have hdis : Disjoint (Set.Ico (0 : ℝ) (min 1 α)) (Set.Ico (min 1 α) 1) :=
    Set.disjoint_left.2 fun x h1 h2 => absurd h1.2 (not_lt.2 h2.1)
  rw [hsplit, lintegral_union measurableSet_Ico hdis]
  congr 1
  · rw [setLIntegral_congr_fun (g := fun _ => A) measurableSet_Ico, setLIntegral_const,
      Real.volume_Ico, sub_zero, mul_comm]
    intro v hv
    dsimp only
    rw [hf v hv.1 (lt_of_lt_of_le hv.2 hm), if_pos]
    rw [metropolis_iff]
    exact Or.inr (lt_of_lt_of_le hv.2 (min_le_right _ _))
  · rw [setLIntegral_congr_fun (g := fun _ => B) measurableSet_Ico, setLIntegral_const,
      Real.volume_Ico, mul_comm, ENNReal.ofReal_sub _ hm0, ENNReal.ofReal_one]
    intro v hv
    dsimp only
    rw [hf v (le_trans hm0 hv.1) hv.2, if_neg]
    rw [metropolis_iff, not_or, not_lt, not_lt]
    rcases le_total 1 α with h | h
    · rw [min_eq_left h] at hv
      exact absurd hv.2 (not_lt.2 hv.1)
    · rw [min_eq_right h] at hv
      exact ⟨h, hv.1⟩

theorem coe_injective {σ τ : Equiv.Perm ℕ} : (⇑σ : ℕ → ℕ) = ⇑τ ↔ σ = τ :=
  ⟨fun h => Equiv.ext (congrFun h), fun h => by rw [h]⟩

/-- The probability that the attempts of the program lead from `σ` to `τ`. -/
theorem drawProb_loop {n : ℕ} (hn : 2 ≤ n) (nPar : ℕ) (der par : ℕ → List ℝ) (m : ℕ)
    (σ τ : Equiv.Perm ℕ) (a : ℕ) :
    drawProb n m (fun ds => ∃ b, loop (attempt n nPar der par) ds (⇑σ, a) = ok (⇑τ, b)) =
      kern n nPar der par m σ τ := by
  induction m generalizing σ a with
  | zero =>
    unfold drawProb kern
    have : (∃ b, loop (attempt n nPar der par) [] (⇑σ, a) = ok (⇑τ, b)) ↔ σ = τ := by
      rw [← coe_injective]
      constructor
      · rintro ⟨b, h⟩
        rw [loop_nil] at h
        injection h with h
        exact (Prod.mk.inj h).1
      · intro h; exact ⟨a, by rw [loop_nil, h]⟩
    exact ind_congr this
  | succ m ih =>
    unfold drawProb kern
    rw [← sum_draws n (fun p => pairProb n *
      (acc nPar der par σ p * kern n nPar der par m (σ * Equiv.swap p.1 p.2) τ
        + (1 - acc nPar der par σ p) * kern n nPar der par m σ τ))]
    refine Finset.sum_congr rfl fun i hi => Finset.sum_congr rfl fun j hj => ?_
    congr 1
    rw [Finset.mem_range] at hi hj
    unfold acc
    dsimp only
    set s := (if i ≤ j then j + 1 else j) with hs
    refine lintegral_two (Real.exp_pos _).le _ _ _ ?_
    intro v h0 h1
    have hv : (⟨i, j, v⟩ : Draw).Valid n := ⟨hi, Or.inl hj, h0, h1⟩
    have hsec : second ⟨i, j, v⟩ = s := rfl
    simp only [loop_cons, attempt_eq hn nPar der par _ hv, ok_bind, hsec]
    by_cases hm : metropolis (Real.exp (-weight nPar der par (⇑σ) i s)) v = true
    · simp only [hm, if_true, swapAt_perm]
      exact ih _ _
    · simp only [hm]
      exact ih σ a

end Verif.Replica
