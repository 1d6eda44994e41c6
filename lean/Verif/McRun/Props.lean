/-
C84: Monte Carlo runs.
-/
import Verif.McRun.Model
import Mathlib.Data.List.GetD
import Mathlib.Tactic.Linarith
import Mathlib.Tactic.Ring
import Mathlib.Tactic.FieldSimp

set_option autoImplicit false

namespace Verif.McRun

open Verif.Cpp
open Verif.Cpp.Out
open MeasureTheory ProbabilityTheory
open scoped ENNReal

/-! ### Probabilities -/

theorem total_eq (w : List ℝ) : total w = w.sum := by
  have h : ∀ (l : List ℝ) (t : ℝ), l.foldl (fun t p => t + p) t = t + l.sum := by
    intro l
    induction l with
    | nil => intro t; simp
    | cons a l ih => intro t; rw [List.foldl_cons, ih, List.sum_cons]; ring
  rw [total, h, zero_add]

theorem sum_map_div (w : List ℝ) (t : ℝ) : (w.map fun p => p / t).sum = w.sum / t := by
  induction w with
  | nil => simp
  | cons a l ih => rw [List.map_cons, List.sum_cons, List.sum_cons, ih, add_div]

/-- **C84 (probabilities).**  If no probability in the parameter file is negative and one is positive, the
probabilities of the moves are a distribution in the proportions of the file. -/
theorem C84_normalize (w : List ℝ) (h0 : ∀ p ∈ w, 0 ≤ p) (hp : ∃ p ∈ w, 0 < p) :
    (normalize w).length = w.length ∧ (normalize w).sum = 1 ∧ (∀ p ∈ normalize w, 0 ≤ p)
    ∧ ∀ i j, (normalize w).getD i 0 * w.getD j 0 = (normalize w).getD j 0 * w.getD i 0 := by
  have hs : 0 < w.sum := by
    obtain ⟨p, hm, hp⟩ := hp
    exact lt_of_lt_of_le hp (List.single_le_sum h0 p hm)
  refine ⟨by simp [normalize], ?_, ?_, ?_⟩
  · rw [normalize, sum_map_div, total_eq, div_self hs.ne']
  · intro p hm
    obtain ⟨q, hq, rfl⟩ := List.mem_map.1 hm
    exact div_nonneg (h0 q hq) (by rw [total_eq]; exact hs.le)
  · have e : ∀ i, (normalize w).getD i 0 = w.getD i 0 / total w := by
      intro i
      unfold normalize
      rw [List.getD_eq_getElem?_getD, List.getD_eq_getElem?_getD, List.getElem?_map]
      cases w[i]? <;> simp
    intro i j
    rw [e, e]
    ring

/-- **C84 (reading again).**  The normalized probabilities are those of the moves after a restart:
normalizing again changes nothing. -/
theorem C84_normalize_again (w : List ℝ) (h0 : ∀ p ∈ w, 0 ≤ p) (hp : ∃ p ∈ w, 0 < p) :
    normalize (normalize w) = normalize w := by
  have h := (C84_normalize w h0 hp).2.1
  have e : total (normalize w) = 1 := by rw [total_eq, h]
  conv_lhs => rw [normalize, e]
  simp

/-- **C84 (probabilities, violated).**  Nothing checks the signs: the probabilities 2 and −1 in the file
give one above one and one below zero. -/
theorem C84_normalize_violated : ∃ w : List ℝ, normalize w = [2, -1] :=
  ⟨[2, -1], by norm_num [normalize, total]⟩

/-! ### Distribution of states -/

variable {X : Type} [MeasurableSpace X]

/-- The step as a kernel. -/
noncomputable def stepKernel (p : List ℝ) (κ : ℕ → Kernel X X) : Kernel X X where
  toFun := stepMeasure p κ
  measurable' := by
    refine Measure.measurable_of_measurable_coe _ fun s hs => ?_
    simp only [stepMeasure, Measure.coe_finsetSum, Finset.sum_apply, Measure.smul_apply, smul_eq_mul]
    exact Finset.measurable_sum _ fun i _ => ((κ i).measurable_coe hs).const_mul _

theorem stepKernel_apply (p : List ℝ) (κ : ℕ → Kernel X X) (x : X) (s : Set X) :
    stepKernel p κ x s = ∑ i ∈ Finset.range p.length, ENNReal.ofReal (p.getD i 0) * κ i x s := by
  show stepMeasure p κ x s = _
  simp [stepMeasure, Measure.coe_finsetSum, Finset.sum_apply]

/-- The states after `n` steps. -/
noncomputable def runKernel (p : List ℝ) (κ : ℕ → Kernel X X) : ℕ → Kernel X X
  | 0 => Kernel.id
  | n + 1 => stepKernel p κ ∘ₖ runKernel p κ n

theorem sum_ofReal (p : List ℝ) (h0 : ∀ q ∈ p, 0 ≤ q) (h1 : p.sum = 1) :
    ∑ i ∈ Finset.range p.length, ENNReal.ofReal (p.getD i 0) = 1 := by
  have hnn : ∀ i ∈ Finset.range p.length, 0 ≤ p.getD i 0 := by
    intro i hi
    have hi' := Finset.mem_range.1 hi
    rw [List.getD_eq_getElem _ _ hi']
    exact h0 _ (List.getElem_mem hi')
  rw [← ENNReal.ofReal_sum_of_nonneg hnn]
  have : ∑ i ∈ Finset.range p.length, p.getD i 0 = p.sum := by
    clear h0 h1 hnn
    induction p with
    | nil => simp
    | cons a l ih =>
      rw [List.length_cons, Finset.sum_range_succ', List.sum_cons, ← ih]
      simp [add_comm]
  rw [this, h1, ENNReal.ofReal_one]

/-- **C84 (some move is chosen).**  A step is a Markov chain step: its probabilities add up to one. -/
theorem C84_markov (w : List ℝ) (h0 : ∀ p ∈ w, 0 ≤ p) (hp : ∃ p ∈ w, 0 < p) (κ : ℕ → Kernel X X)
    (hκ : ∀ i, IsMarkovKernel (κ i)) : IsMarkovKernel (stepKernel (normalize w) κ) := by
  obtain ⟨_, h1, h2, _⟩ := C84_normalize w h0 hp
  refine ⟨fun x => ⟨?_⟩⟩
  rw [stepKernel_apply]
  have : ∀ i, κ i x Set.univ = 1 := fun i => measure_univ
  simp only [this, mul_one]
  exact sum_ofReal _ h2 h1

/-- **C84 (detailed balance).**  If each move satisfies detailed balance with a distribution, so does a
step of the simulation. -/
theorem C84_reversible (p : List ℝ) (κ : ℕ → Kernel X X) (μ : Measure X)
    (h : ∀ i < p.length, Kernel.IsReversible (κ i) μ) : Kernel.IsReversible (stepKernel p κ) μ := by
  intro A B hA hB
  simp only [stepKernel_apply]
  rw [lintegral_finsetSum _ fun i _ => ((κ i).measurable_coe hB).const_mul _,
    lintegral_finsetSum _ fun i _ => ((κ i).measurable_coe hA).const_mul _]
  refine Finset.sum_congr rfl fun i hi => ?_
  rw [lintegral_const_mul _ ((κ i).measurable_coe hB), lintegral_const_mul _ ((κ i).measurable_coe hA),
    h i (Finset.mem_range.1 hi) hA hB]

/-- **C84 (equilibrium).**  A simulation started from a distribution with which all its moves satisfy
detailed balance keeps that distribution after any number of steps. -/
theorem C84_invariant (w : List ℝ) (h0 : ∀ p ∈ w, 0 ≤ p) (hp : ∃ p ∈ w, 0 < p) (κ : ℕ → Kernel X X)
    (hκ : ∀ i, IsMarkovKernel (κ i)) (μ : Measure X)
    (h : ∀ i < w.length, Kernel.IsReversible (κ i) μ) (n : ℕ) :
    μ.bind (runKernel (normalize w) κ n) = μ := by
  have hm := C84_markov w h0 hp κ hκ
  have hl := (C84_normalize w h0 hp).1
  have hinv : Kernel.Invariant (stepKernel (normalize w) κ) μ :=
    (C84_reversible (normalize w) κ μ (by rw [hl]; exact h)).invariant
  suffices H : Kernel.Invariant (runKernel (normalize w) κ n) μ from H
  induction n with
  | zero => exact Measure.id_comp
  | succ n ih =>
    exact hinv.comp ih

/-! ### Counters -/

/-- **C84 (counters).**  After a run the counters of a move have grown by the number of steps that chose
it, and of these that were accepted. -/
theorem C84_counters (c : ℕ → Counter) (steps : List (ℕ × Bool)) (b : Bool) (i : ℕ) :
    (simulate b c steps i).nAttempt = (c i).nAttempt + steps.countP (fun s => s.1 = i)
    ∧ (simulate b c steps i).nAccept = (c i).nAccept + steps.countP (fun s => s.1 = i ∧ s.2 = true) := by
  unfold simulate runCounters
  induction steps generalizing c with
  | nil => simp
  | cons s l ih =>
    obtain ⟨h1, h2⟩ := ih (fun k => if k = s.1 then (c k).move s.2 else c k)
    rw [List.foldl_cons]
    refine ⟨?_, ?_⟩
    · rw [h1, List.countP_cons]
      by_cases hs : i = s.1
      · subst hs; cases hb : s.2 <;> (simp [Counter.move]; omega)
      · have : ¬ s.1 = i := fun e => hs e.symm
        simp [hs, this]
    · rw [h2, List.countP_cons]
      by_cases hs : i = s.1
      · subst hs; cases hb : s.2 <;> simp [Counter.move] <;> omega
      · have : ¬ s.1 = i := fun e => hs e.symm
        simp [hs, this]

/-- **C84 (acceptance rate).**  The rate of a move whose counters were zero before a run is the fraction of
its attempts in the run that were accepted, lies between 0 and 1, and is 0 for a move that was not
attempted. -/
theorem C84_rate (c : ℕ → Counter) (steps : List (ℕ × Bool)) (b : Bool) (i : ℕ) (h : c i = Counter.zero) :
    rate (simulate b c steps i) * (steps.countP (fun s => s.1 = i) : ℕ)
      = (steps.countP (fun s => s.1 = i ∧ s.2 = true) : ℕ)
    ∧ 0 ≤ rate (simulate b c steps i) ∧ rate (simulate b c steps i) ≤ 1
    ∧ ((∀ s ∈ steps, s.1 ≠ i) → rate (simulate b c steps i) = 0) := by
  obtain ⟨h1, h2⟩ := C84_counters c steps b i
  rw [h] at h1 h2
  simp only [Counter.zero, zero_add] at h1 h2
  have hle : steps.countP (fun s => s.1 = i ∧ s.2 = true) ≤ steps.countP (fun s => s.1 = i) := by
    apply List.countP_mono_left
    intro s _ hs
    simp only [decide_eq_true_eq] at hs ⊢
    exact hs.1
  unfold rate
  rw [h1, h2]
  by_cases h0 : steps.countP (fun s => s.1 = i) = 0
  · rw [if_pos h0, h0]
    have : steps.countP (fun s => s.1 = i ∧ s.2 = true) = 0 := by omega
    rw [this]
    norm_num
  · rw [if_neg h0]
    have hpos : (0 : ℝ) < (steps.countP (fun s => s.1 = i) : ℕ) := by exact_mod_cast Nat.pos_of_ne_zero h0
    refine ⟨?_, ?_, ?_, ?_⟩
    · field_simp
    · positivity
    · rw [div_le_one hpos]
      exact_mod_cast hle
    · intro hne
      refine absurd (List.countP_eq_zero.2 ?_) h0
      intro s hs
      simpa using hne s hs

/-- **C84 (every step counts once).**  The attempts of all moves of a run add up to its steps. -/
theorem C84_attempts (nMove : ℕ) (c : ℕ → Counter) (steps : List (ℕ × Bool)) (b : Bool)
    (h : ∀ s ∈ steps, s.1 < nMove) :
    ∑ i ∈ Finset.range nMove, (simulate b c steps i).nAttempt
      = ∑ i ∈ Finset.range nMove, (c i).nAttempt + steps.length := by
  simp only [fun i => (C84_counters c steps b i).1, Finset.sum_add_distrib]
  congr 1
  clear c b
  induction steps with
  | nil => simp
  | cons s l ih =>
    simp only [List.countP_cons, Finset.sum_add_distrib, List.length_cons]
    rw [ih fun x hx => h x (List.mem_cons_of_mem _ hx)]
    congr 1
    rw [Finset.sum_eq_single s.1]
    · simp
    · intro j _ hj
      have : ¬ s.1 = j := fun e => hj e.symm
      simp [this]
    · intro hn
      exact absurd (Finset.mem_range.2 (h s List.mem_cons_self)) hn

/-- **C84 (second run).**  A run that is not a continuation does not set the counters to zero: what is
written after it are sums over both runs. -/
theorem C84_again (c : ℕ → Counter) (s1 s2 : List (ℕ × Bool)) (i : ℕ) :
    (simulate false (simulate false c s1) s2 i).nAttempt
      = (c i).nAttempt + (s1 ++ s2).countP (fun s => s.1 = i) := by
  rw [(C84_counters _ s2 false i).1, (C84_counters c s1 false i).1, List.countP_append]
  omega

/-! ### Setup -/

theorem steps_none (m : Mover) (n : ℕ) (h : m.prefactor = none) (hn : 0 < n) : m.steps n = ub := by
  obtain ⟨k, rfl⟩ : ∃ k, n = k + 1 := ⟨n - 1, by omega⟩
  unfold Mover.steps
  rw [List.range_succ_eq_map, loop_cons]
  simp [Mover.stepIntegrator, h]

theorem steps_some (m : Mover) (n : ℕ) (f : ℝ) (h : m.prefactor = some f) : m.steps n = ok m := by
  unfold Mover.steps
  generalize List.range n = l
  induction l with
  | nil => rfl
  | cons a l ih =>
    rw [loop_cons]
    have : m.stepIntegrator = ok m := by simp [Mover.stepIntegrator, h]
    rw [this]
    exact ih

/-- **C84 (hybrid moves).**  Hybrid moves set up their integrator themselves, in whatever state it was. -/
theorem C84_hybrid (f : ℝ) (m : Mover) (n : ℕ) (h : m.kind = Kind.hybrid n) :
    m.move f = ok (m.setupIntegrator f) := by
  unfold Mover.move
  rw [h]
  exact steps_some _ n f rfl

/-- **C84 (setup).**  After `McMoveManager::setup` a `DpdMove` uses the prefactor that was set. -/
theorem C84_dpd_setup (f : ℝ) (ms : ℕ → Mover) (i n : ℕ) (h : (ms i).kind = Kind.dpd n) :
    ((managerSetup f ms) i).move f = ok ((ms i).setupIntegrator f) := by
  have e : managerSetup f ms i = (ms i).setupIntegrator f := by simp [managerSetup, Mover.setup, h]
  rw [e]
  unfold Mover.move
  have : ((ms i).setupIntegrator f).kind = Kind.dpd n := h
  rw [this]
  exact steps_some _ n f rfl

/-- A move that uses an integrator without setting it up. -/
def Bare (m : Mover) : Prop :=
  m.prefactor = none ∧ ∃ n, 0 < n ∧ (m.kind = Kind.dpd n ∨ m.kind = Kind.md n)

theorem move_bare (f : ℝ) (m : Mover) (h : Bare m) : m.move f = ub := by
  obtain ⟨h0, n, hn, hk | hk⟩ := h <;> unfold Mover.move <;> rw [hk] <;> exact steps_none m n h0 hn

theorem move_total (f : ℝ) (m : Mover) : m.move f = ub ∨ ∃ m', m.move f = ok m' := by
  rcases m with ⟨k, _ | g⟩
  · rcases k with _ | n | n | n
    · exact Or.inr ⟨_, rfl⟩
    · exact Or.inr ⟨_, C84_hybrid f _ n rfl⟩
    · rcases Nat.eq_zero_or_pos n with rfl | hn
      · exact Or.inr ⟨_, rfl⟩
      · exact Or.inl (steps_none _ n rfl hn)
    · rcases Nat.eq_zero_or_pos n with rfl | hn
      · exact Or.inr ⟨_, rfl⟩
      · exact Or.inl (steps_none _ n rfl hn)
  · rcases k with _ | n | n | n
    · exact Or.inr ⟨_, rfl⟩
    · exact Or.inr ⟨_, C84_hybrid f _ n rfl⟩
    · exact Or.inr ⟨_, steps_some _ n g rfl⟩
    · exact Or.inr ⟨_, steps_some _ n g rfl⟩

/-- **C84 (setup, violated).**  A simulation never calls `McMoveManager::setup`: every run in which a
`DpdMove` or `MdMove` read from a parameter file is chosen integrates with prefactors that nothing has
set. -/
theorem C84_setup_violated (f : ℝ) (ms : ℕ → Mover) (draws : List ℕ) (i : ℕ) (hi : i ∈ draws)
    (h : Bare (ms i)) : runMoves f ms draws = ub := by
  unfold runMoves
  induction draws generalizing ms with
  | nil => exact absurd hi List.not_mem_nil
  | cons a l ih =>
    rw [loop_cons]
    rcases move_total f (ms a) with e | ⟨m', e⟩
    · simp [e]
    · by_cases ha : a = i
      · subst ha
        rw [move_bare f _ h] at e
        cases e
      · simp only [e, ok_bind]
        refine ih _ ?_ ?_
        · rcases List.mem_cons.1 hi with h' | h'
          · exact absurd h'.symm ha
          · exact h'
        · have : ¬ i = a := fun e => ha e.symm
          simpa [this] using h

open Classical in
/-- What a run leaves of a move: hybrid moves that were chosen have set up their integrator. -/
noncomputable def afterRun (f : ℝ) (draws : List ℕ) (i : ℕ) (m : Mover) : Mover :=
  if i ∈ draws ∧ ∃ n, m.kind = Kind.hybrid n then m.setupIntegrator f else m

theorem move_ok (f : ℝ) (m m' : Mover) (h : m.move f = ok m') : m' = afterRun f [0] 0 m := by
  rcases m with ⟨k, g⟩
  rcases k with _ | n | n | n
  · simp only [Mover.move, ok.injEq] at h
    simp [afterRun, ← h]
  · rw [C84_hybrid f _ n rfl, ok.injEq] at h
    simp [afterRun, ← h]
  all_goals
    simp only [Mover.move] at h
    have : ∀ l : List ℕ, ∀ x y : Mover, loop (fun m _ => m.stepIntegrator) l x = ok y → y = x := by
      intro l
      induction l with
      | nil => intro x y e; rw [loop_nil, ok.injEq] at e; exact e.symm
      | cons a l ih =>
        intro x y e
        rw [loop_cons] at e
        rcases x with ⟨kx, _ | gx⟩
        · simp [Mover.stepIntegrator] at e
        · exact ih _ _ e
    simp [afterRun, this _ _ _ h]

/-- **C84 (moves after a run).**  A run that ends leaves every move as it was, but for the integrators of
hybrid moves that were chosen, which are set up; other moves do not affect it. -/
theorem C84_moves (f : ℝ) (ms ms' : ℕ → Mover) (draws : List ℕ) (h : runMoves f ms draws = ok ms') (i : ℕ) :
    ms' i = afterRun f draws i (ms i) := by
  unfold runMoves at h
  induction draws generalizing ms with
  | nil =>
    rw [loop_nil, ok.injEq] at h
    simp [afterRun, h]
  | cons a l ih =>
    rw [loop_cons] at h
    rcases move_total f (ms a) with e | ⟨m', e⟩
    · simp [e] at h
    · simp only [e, ok_bind] at h
      rw [ih _ h]
      have hm := move_ok f _ _ e
      by_cases ha : i = a
      · subst ha
        rw [if_pos rfl, hm]
        by_cases hk : ∃ n, (ms i).kind = Kind.hybrid n
        · have hk' : ∃ n, ((ms i).setupIntegrator f).kind = Kind.hybrid n := hk
          by_cases hl : i ∈ l <;> simp [afterRun, hk, hl, Mover.setupIntegrator]
        · simp [afterRun, hk]
      · rw [if_neg ha]
        unfold afterRun
        by_cases hl : i ∈ l ∧ ∃ n, (ms i).kind = Kind.hybrid n
        · rw [if_pos hl, if_pos ⟨List.mem_cons_of_mem _ hl.1, hl.2⟩]
        · rw [if_neg hl, if_neg]
          rintro ⟨h1, h2⟩
          exact hl ⟨(List.mem_cons.1 h1).resolve_left ha, h2⟩

end Verif.McRun
