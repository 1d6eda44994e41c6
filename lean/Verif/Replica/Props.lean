/-
Properties of replica exchange: C41 (configurations are permuted among the
processors, whatever the schedule) and C57 (balance of the exchange, and derivatives of
perturbations).
-/
import Verif.Replica.Sync
import Verif.Replica.Balance
import Verif.Replica.Perturb

set_option autoImplicit false

namespace Verif.Replica

open Verif.Cpp Verif.Cpp.Out Verif.Cpp.Net Verif.McMoves
open scoped ENNReal

/-! ### C41 -/

/-- C41.  Let at least two processors perform the move, with equal numbers of atoms and of
parameters, and any random numbers.  There is a permutation `σ` of the ranks such that,
if sends are buffered, every schedule of the processors is finite, can always be
continued, and ends in the same state: the configuration of rank `p` is on rank `σ p`
(boundary and positions), each rank has logged the rank to which its configuration went,
ranks that keep their configuration exchange nothing, only the counters of rank 0
change, and no message is left. -/
theorem C41_exchange {n : ℕ} (hn : 2 ≤ n) (nPar nAtom : ℕ) (der par : ℕ → List ℝ)
    (buf : ℕ → List Vec) (rep : ℕ → Rep) (ds : List Draw) (hd : ∀ d ∈ ds, d.Valid n)
    (h1 : ∀ p, p < n → (der p).length = nPar) (h2 : ∀ p, p < n → (par p).length = nPar)
    (hpos : ∀ p, p < n → (rep p).pos.length = nAtom) :
    ∃ (σ : Equiv.Perm ℕ) (acc N : ℕ) (e : Conf ℕ Msg (Out Res)),
      sample n nPar der par ds = ok (⇑σ, acc) ∧ acc ≤ ds.length ∧ (∀ p, p < n → σ p < n) ∧
      Ended e ∧
      (∀ m d, Steps m (start n nPar der par buf rep ds) d → m ≤ N ∧ Steps (N - m) d e) ∧
      (∀ p, p < n → ∃ r, e.proc (σ p) = .done (ok r) ∧ r.rep.lengths = (rep p).lengths ∧
        r.rep.pos = (rep p).pos) ∧
      (∀ p, p < n → ∃ r, e.proc p = .done (ok r) ∧ r.log = σ p ∧
        (r.partners = none ↔ σ p = p) ∧
        (∀ a b, r.partners = some (a, b) → a = σ p ∧ σ b = p) ∧
        r.rep.attempt = (rep p).attempt + (if p = 0 then ds.length else 0) ∧
        r.rep.accept = (rep p).accept + (if p = 0 then acc else 0)) ∧
      (∀ x y t, e.chan x y t = []) := by
  obtain ⟨σ, acc, hσ, hacc, hs⟩ := sample_ok hn nPar der par ds hd
  obtain ⟨N, hN⟩ := reach_final hn nPar der par buf rep ds hd h1 h2 hσ hs
  have hend := finalGen_ended n buf rep σ ds.length acc
  have hfin := finalGen_eq hσ buf rep ds.length acc nAtom hpos
  rw [hfin] at hN hend
  refine ⟨σ, acc, N, _, hs, hacc, fun p hp => hσ.lt hp, hend,
    fun m d hd => hN.confluent hend hd, ?_, ?_, fun _ _ _ => rfl⟩
  · intro p hp
    refine ⟨_, if_pos (hσ.lt hp), ?_, ?_⟩
    · have : σ⁻¹ (σ p) = p := σ.symm_apply_apply p
      dsimp only
      rw [this]
    · have : σ⁻¹ (σ p) = p := σ.symm_apply_apply p
      dsimp only
      rw [this]
  · intro p hp
    refine ⟨_, if_pos hp, rfl, ?_, ?_, ?_, ?_⟩
    · dsimp only
      by_cases h : σ p = p
      · simp [h]
      · simp [h]
    · intro a b hab
      dsimp only at hab
      by_cases h : σ p = p
      · rw [if_pos h] at hab; exact absurd hab (by simp)
      · rw [if_neg h] at hab
        injection hab with hab
        injection hab with e1 e2
        subst e1; subst e2
        exact ⟨rfl, perm_inv_apply σ p⟩
    · dsimp only
      unfold counted
      split
      · rename_i h; subst h; rfl
      · rfl
    · dsimp only
      unfold counted
      split
      · rename_i h; subst h; rfl
      · rfl

/-- C41.  Consequently no schedule deadlocks, and all give the same result. -/
theorem C41_no_deadlock {n : ℕ} (hn : 2 ≤ n) (nPar nAtom : ℕ) (der par : ℕ → List ℝ)
    (buf : ℕ → List Vec) (rep : ℕ → Rep) (ds : List Draw) (hd : ∀ d ∈ ds, d.Valid n)
    (h1 : ∀ p, p < n → (der p).length = nPar) (h2 : ∀ p, p < n → (par p).length = nPar)
    (hpos : ∀ p, p < n → (rep p).pos.length = nAtom) {m m' : ℕ} {d d' : Conf ℕ Msg (Out Res)}
    (s1 : Steps m (start n nPar der par buf rep ds) d) (t1 : ∀ f, ¬ Step d f)
    (s2 : Steps m' (start n nPar der par buf rep ds) d') (t2 : ∀ f, ¬ Step d' f) :
    d = d' ∧ Ended d := by
  obtain ⟨σ, acc, N, e, _, _, _, he, hc, _⟩ := C41_exchange hn nPar nAtom der par buf rep ds hd h1 h2
    hpos
  have key : ∀ {m : ℕ} {d : Conf ℕ Msg (Out Res)}, Steps m (start n nPar der par buf rep ds) d →
      (∀ f, ¬ Step d f) → d = e := by
    intro m d s t
    obtain ⟨_, h⟩ := hc m d s
    cases hk : N - m with
    | zero => rw [hk] at h; cases h; rfl
    | succ k =>
      rw [hk] at h
      cases h with
      | head hs _ => exact (t _ hs).elim
  have e1 := key s1 t1
  have e2 := key s2 t2
  exact ⟨by rw [e1, e2], by rw [e1]; exact he⟩

/-- A test: two ranks with one atom each. -/
noncomputable def exRep (p : ℕ) : Rep where
  lengths := fun _ => (p : ℝ) + 1
  pos := [fun _ => (p : ℝ)]
  attempt := 0
  accept := 0

/-- One attempt, with the deviate 0, which is always accepted. -/
def exDraw : Draw := ⟨0, 0, 0⟩

theorem exDraw_valid : exDraw.Valid 2 := ⟨by decide, Or.inl (by decide), le_refl _, zero_lt_one⟩

/-- The test exchanges the two configurations. -/
theorem exSample (nPar : ℕ) (der par : ℕ → List ℝ) :
    sample 2 nPar der par [exDraw] = ok (⇑(Equiv.swap 0 1), 1) := by
  unfold sample
  rw [loop_cons, attempt_eq (le_refl 2) nPar der par _ exDraw_valid, ok_bind, loop_nil]
  have hsec : second exDraw = 1 := rfl
  rw [if_pos (by rw [metropolis_iff]; exact Or.inr (Real.exp_pos _)), hsec]
  have := swapAt_perm 1 0 1
  rw [one_mul] at this
  have e : swapAt id exDraw.i 1 = swapAt (⇑(1 : Equiv.Perm ℕ)) 0 1 := rfl
  rw [e, this]

example : ∃ (e : Conf ℕ Msg (Out Res)) (N : ℕ),
    Steps N (start 2 1 (fun p => [(p : ℝ)]) (fun p => [(p : ℝ)]) (fun _ => []) exRep [exDraw]) e ∧
    Ended e ∧ ∃ r, e.proc 1 = .done (ok r) ∧ r.rep.pos = [fun _ => (0 : ℝ)] := by
  obtain ⟨σ, acc, N, e, h1, _, _, h4, h5, h6, _⟩ := C41_exchange (le_refl 2) 1 1
    (fun p => [(p : ℝ)]) (fun p => [(p : ℝ)]) (fun _ => []) exRep [exDraw]
    (by intro d hd; rw [List.mem_singleton] at hd; rw [hd]; exact exDraw_valid)
    (fun _ _ => rfl) (fun _ _ => rfl) (fun _ _ => rfl)
  rw [exSample] at h1
  injection h1 with h1
  have hσ : σ 0 = 1 := by
    have := congrFun (Prod.mk.inj h1).1 0
    rw [← this]; decide
  refine ⟨e, N, (h5 0 _ (Steps.refl _)).2, h4, ?_⟩
  obtain ⟨r, hr1, _, hr3⟩ := h6 0 (by decide)
  rw [hσ] at hr1
  exact ⟨r, hr1, by rw [hr3]; simp [exRep]⟩

/-- C41.  If sends wait for the matching receive (as MPI allows for `Send`), then the move
deadlocks whenever some configuration is to be moved: no schedule ends. -/
theorem C41_waiting_sends_deadlock {n : ℕ} (hn : 2 ≤ n) (nPar : ℕ) (der par : ℕ → List ℝ)
    (buf : ℕ → List Vec) (rep : ℕ → Rep) (ds : List Draw) (hd : ∀ d ∈ ds, d.Valid n)
    (h1 : ∀ p, p < n → (der p).length = nPar) (h2 : ∀ p, p < n → (par p).length = nPar)
    {σ : ℕ → ℕ} {acc : ℕ} (hs : sample n nPar der par ds = ok (σ, acc))
    (hmove : ∃ i, i < n ∧ σ i ≠ i) {m : ℕ} {d : Conf ℕ Msg (Out Res)}
    (hsteps : SyncSteps m (start n nPar der par buf rep ds) d) : ¬ Ended d := by
  obtain ⟨τ, a, hτ, _, hs'⟩ := sample_ok hn nPar der par ds hd
  rw [hs] at hs'
  injection hs' with hs'
  obtain ⟨e1, e2⟩ := Prod.mk.inj hs'
  subst e1; subst e2
  obtain ⟨e, ⟨N, hN⟩, he1, he2⟩ := sync_deadlock hn nPar der par buf rep ds hd h1 h2 hτ hs hmove
  exact hN.deadlock he1 he2 hsteps

example {m : ℕ} {d : Conf ℕ Msg (Out Res)}
    (h : SyncSteps m (start 2 1 (fun p => [(p : ℝ)]) (fun p => [(p : ℝ)]) (fun _ => []) exRep
      [exDraw]) d) : ¬ Ended d :=
  C41_waiting_sends_deadlock (le_refl 2) 1 _ _ _ _ _
    (by intro d hd; rw [List.mem_singleton] at hd; rw [hd]; exact exDraw_valid)
    (fun _ _ => rfl) (fun _ _ => rfl) (exSample _ _ _) ⟨0, by decide, by decide⟩ h

/-- C41.  With a single processor the move reads beyond the end of an array. -/
theorem C41_single (nPar : ℕ) (der par : ℕ → List ℝ) (buf : ℕ → List Vec) (rep : ℕ → Rep)
    (d : Draw) (ds : List Draw) (hd : d.Valid 1) :
    (start 1 nPar der par buf rep (d :: ds)).proc 0 = .done Out.ub := by
  have hi : d.i = 0 := by have := hd.1; omega
  have hj : d.j = 0 := by have := hd.2.1; omega
  have hsec : ¬ second d < 1 := by unfold second; rw [hi, hj]; decide
  have : ∀ a b, sample 1 nPar a b (d :: ds) = Out.ub := by
    intro a b
    unfold sample
    rw [loop_cons]
    unfold attempt
    rw [require_true hd.1, require_false hsec]
    rfl
  simp only [start, if_pos Nat.zero_lt_one, master, gather, this]
  rfl

/-- C41.  If the numbers of atoms differ, a rank that receives more positions than it has
atoms fails, and one that receives fewer adopts, for its last atoms, whatever its buffer
contained before. -/
theorem C41_unequal_atoms {n : ℕ} (hn : 2 ≤ n) (nPar : ℕ) (der par : ℕ → List ℝ)
    (buf : ℕ → List Vec) (rep : ℕ → Rep) (ds : List Draw) (hd : ∀ d ∈ ds, d.Valid n)
    (h1 : ∀ p, p < n → (der p).length = nPar) (h2 : ∀ p, p < n → (par p).length = nPar)
    {σ : ℕ → ℕ} {acc : ℕ} (hs : sample n nPar der par ds = ok (σ, acc)) :
    ∃ N e, Steps N (start n nPar der par buf rep ds) e ∧ Ended e ∧
      (∀ p, p < n → σ p ≠ p → (rep (σ p)).pos.length < (rep p).pos.length →
        e.proc (σ p) = .done Out.throw) ∧
      (∀ p, p < n → σ p ≠ p → (rep p).pos.length < (rep (σ p)).pos.length →
        ∃ r, e.proc (σ p) = .done (ok r) ∧ r.rep.pos = (rep p).pos ++
          ((buf (σ p)).drop (rep p).pos.length).take
            ((rep (σ p)).pos.length - (rep p).pos.length)) := by
  obtain ⟨τ, a, hτ, _, hs'⟩ := sample_ok hn nPar der par ds hd
  rw [hs] at hs'
  injection hs' with hs'
  obtain ⟨e1, e2⟩ := Prod.mk.inj hs'
  subst e1; subst e2
  obtain ⟨N, hN⟩ := reach_final hn nPar der par buf rep ds hd h1 h2 hτ hs
  refine ⟨N, _, hN, finalGen_ended _ _ _ _ _ _, ?_, ?_⟩
  · intro p hp hne hlt
    have hne' : τ (τ p) ≠ τ p := fun h => hne (τ.injective h)
    have hinv : τ⁻¹ (τ p) = p := τ.symm_apply_apply p
    simp only [finalGen, if_pos (hτ.lt hp), if_neg hne', moved, hinv, received]
    rw [check_false (by omega)]
    rfl
  · intro p hp hne hlt
    have hne' : τ (τ p) ≠ τ p := fun h => hne (τ.injective h)
    have hinv : τ⁻¹ (τ p) = p := τ.symm_apply_apply p
    simp only [finalGen, if_pos (hτ.lt hp), if_neg hne', moved, hinv, received]
    rw [check_true (by omega)]
    refine ⟨_, rfl, ?_⟩
    simp only [adopt, counted_pos]
    rw [List.take_append, List.take_of_length_le (by omega)]

/-! ### C57 -/

/-- Weight of `n` replicas with parameters `par` and configurations with derivatives `der`: the
product of the Boltzmann factors of the perturbations. -/
noncomputable def boltz (n nPar : ℕ) (par der : ℕ → List ℝ) : ℝ :=
  ∏ i ∈ Finset.range n, Real.exp (-∑ k ∈ Finset.range nPar, (par i).getD k 0 * (der i).getD k 0)

theorem boltz_eq (n nPar : ℕ) (par der : ℕ → List ℝ) :
    boltz n nPar par der = Real.exp (-energy n nPar der par id) := by
  unfold boltz energy
  rw [← Real.exp_sum, Finset.sum_neg_distrib]
  rfl

theorem energy_perm {n : ℕ} (nPar : ℕ) {der der' : ℕ → List ℝ} (par : ℕ → List ℝ)
    {σ : Equiv.Perm ℕ} (hσ : Fixes n σ) (h : ∀ i, i < n → der' (σ i) = der i) :
    energy n nPar der par σ = energy n nPar der' par id := by
  unfold energy
  refine Finset.sum_nbij' σ (σ⁻¹ : Equiv.Perm ℕ) ?_ ?_ ?_ ?_ ?_
  · intro i hi; rw [Finset.mem_range] at hi ⊢; exact hσ.lt hi
  · intro i hi; rw [Finset.mem_range] at hi ⊢; exact hσ.inv.lt hi
  · intro i _; exact σ.symm_apply_apply i
  · intro i _; exact σ.apply_symm_apply i
  · intro i hi
    rw [Finset.mem_range] at hi
    rw [h i hi]
    rfl

/-- C57.  Detailed balance: let the configurations on `n` processors have derivatives `der`, and
let `der'` be those after the configurations have been moved by a permutation `σ`.  The
weight of the first state times the probability that the move (with any number of
attempts) applies `σ` is the weight of the second times the probability that the move
applied to it restores the first. -/
theorem C57_balance {n : ℕ} (hn : 2 ≤ n) (nPar m : ℕ) (par der der' : ℕ → List ℝ)
    {σ : Equiv.Perm ℕ} (hσ : ∀ i, n ≤ i → σ i = i) (h : ∀ i, i < n → der' (σ i) = der i) :
    ENNReal.ofReal (boltz n nPar par der) *
        drawProb n m (fun ds => ∃ a, sample n nPar der par ds = ok (⇑σ, a)) =
      ENNReal.ofReal (boltz n nPar par der') *
        drawProb n m (fun ds => ∃ a, sample n nPar der' par ds = ok (⇑σ⁻¹, a)) := by
  have e1 := drawProb_loop hn nPar der par m 1 σ 0
  have e2 := drawProb_loop hn nPar der' par m 1 σ⁻¹ 0
  have e3 := kern_relabel nPar der der' par (ρ := σ) hσ h m 1 σ⁻¹
  rw [one_mul, inv_mul_cancel] at e3
  have e4 := kern_balance n nPar der par m 1 σ
  change drawProb n m (fun ds => ∃ a, sample n nPar der par ds = ok (⇑σ, a)) = _ at e1
  change drawProb n m (fun ds => ∃ a, sample n nPar der' par ds = ok (⇑σ⁻¹, a)) = _ at e2
  rw [e1, e2, e3, boltz_eq, boltz_eq, ← energy_perm nPar par hσ h]
  exact e4

/-- C57.  The probabilities of all permutations add up to one: no draw fails. -/
theorem C57_total {n : ℕ} (hn : 2 ≤ n) (nPar m : ℕ) (par der : ℕ → List ℝ) :
    drawProb n m (fun ds => ∃ (σ : Equiv.Perm ℕ) (a : ℕ),
      sample n nPar der par ds = ok (⇑σ, a)) = 1 := by
  have key : ∀ m, drawProb n m (fun _ => True) = 1 := by
    intro m
    induction m with
    | zero => exact ind_pos trivial
    | succ m ih =>
      unfold drawProb
      simp only [ih, MeasureTheory.setLIntegral_const, Real.volume_Ico, sub_zero,
        ENNReal.ofReal_one, mul_one, Finset.sum_const, Finset.card_range, smul_smul]
      unfold pairProb
      rw [nsmul_eq_mul, ENNReal.mul_inv_cancel]
      · have : 0 < n * (n - 1) := Nat.mul_pos (by omega) (by omega)
        exact_mod_cast this.ne'
      · exact ENNReal.natCast_ne_top _
  rw [← key m]
  refine drawProb_congr m fun ds hds => ⟨fun _ => trivial, fun _ => ?_⟩
  obtain ⟨σ, a, _, _, hs⟩ := sample_ok hn nPar der par ds
    (fun d hd => ⟨(hds d hd).1, Or.inl (hds d hd).2.1, (hds d hd).2.2⟩)
  exact ⟨σ, a, hs⟩

/-- C57.  An exchange of favourable sign is certain: with two replicas, one attempt and
parameters and derivatives in the same order, the configurations are exchanged with
probability one. -/
theorem C57_favourable (nPar : ℕ) (par der : ℕ → List ℝ)
    (h : ∑ k ∈ Finset.range nPar, (at' (par 1) k - at' (par 0) k) *
      (at' (der 1) k - at' (der 0) k) > 0) :
    drawProb 2 1 (fun ds => ∃ a, sample 2 nPar der par ds = ok (⇑(Equiv.swap 0 1), a)) = 1 := by
  have e1 := drawProb_loop (le_refl 2) nPar der par 1 1 (Equiv.swap 0 1) 0
  change drawProb 2 1 (fun ds => ∃ a, sample 2 nPar der par ds = ok (⇑(Equiv.swap 0 1), a)) = _ at e1
  rw [e1, kern]
  have hp : pairs 2 = {(0, 1), (1, 0)} := by decide
  have hw1 : weight nPar der par (⇑(1 : Equiv.Perm ℕ)) 0 1 < 0 := by
    rw [weight_sum]
    rw [gt_iff_lt, ← neg_lt_zero, ← Finset.sum_neg_distrib] at h
    refine lt_of_le_of_lt (le_of_eq (Finset.sum_congr rfl fun k _ => ?_)) h
    simp only [Equiv.Perm.coe_one, id]
    ring
  have hw2 : weight nPar der par (⇑(1 : Equiv.Perm ℕ)) 1 0 < 0 := by
    rw [weight_sum]
    rw [gt_iff_lt, ← neg_lt_zero, ← Finset.sum_neg_distrib] at h
    refine lt_of_le_of_lt (le_of_eq (Finset.sum_congr rfl fun k _ => ?_)) h
    simp only [Equiv.Perm.coe_one, id]
    ring
  have a1 : acc nPar der par 1 (0, 1) = 1 := by
    unfold acc
    rw [min_eq_left (Real.one_le_exp (by linarith)), ENNReal.ofReal_one]
  have a2 : acc nPar der par 1 (1, 0) = 1 := by
    unfold acc
    rw [min_eq_left (Real.one_le_exp (by linarith)), ENNReal.ofReal_one]
  rw [hp, Finset.sum_pair (by decide), a1, a2]
  simp only [one_mul, tsub_self, zero_mul, add_zero, kern]
  rw [ind_pos trivial, ind_pos (Equiv.swap_comm 1 0), mul_one]
  unfold pairProb
  have : ((2 * (2 - 1) : ℕ) : ℝ≥0∞) = 2 := by norm_num
  rw [this]
  exact ENNReal.inv_two_add_inv_two

/-- Balance of one attempt between two replicas with parameters 1, 2 and derivatives 3, 5. -/
example : ENNReal.ofReal (boltz 2 1 (fun i => [(i : ℝ) + 1]) (fun i => [2 * (i : ℝ) + 3])) *
      drawProb 2 1 (fun ds => ∃ a, sample 2 1 (fun i => [2 * (i : ℝ) + 3])
        (fun i => [(i : ℝ) + 1]) ds = ok (⇑(Equiv.swap 0 1), a)) =
    ENNReal.ofReal (boltz 2 1 (fun i => [(i : ℝ) + 1])
        (fun i => [2 * ((Equiv.swap 0 1 i : ℕ) : ℝ) + 3])) *
      drawProb 2 1 (fun ds => ∃ a, sample 2 1 (fun i => [2 * ((Equiv.swap 0 1 i : ℕ) : ℝ) + 3])
        (fun i => [(i : ℝ) + 1]) ds = ok (⇑(Equiv.swap 0 1), a)) := by
  have := C57_balance (le_refl 2) 1 1 (fun i => [(i : ℝ) + 1]) (fun i => [2 * (i : ℝ) + 3])
    (fun i => [2 * ((Equiv.swap 0 1 i : ℕ) : ℝ) + 3]) (σ := Equiv.swap 0 1)
    (fun i hi => Equiv.swap_apply_of_ne_of_ne (by omega) (by omega))
    (fun i _ => by rw [Equiv.swap_apply_self])
  rwa [Equiv.swap_inv] at this

/-- C57.  Perturbation of the temperature: the reduced energy is linear in the parameter,
with the slope that is returned. -/
theorem C57_energy_derivative (s : PSys) (x y : ℝ) :
    (setBeta s y).beta * potentialEnergy (setBeta s y) -
        (setBeta s x).beta * potentialEnergy (setBeta s x) =
      (y - x) * energyDerivative (setBeta s x) := by
  unfold energyDerivative setBeta potentialEnergy pairEnergy extEnergy
  ring

/-- C57.  Perturbation of the interaction of two types of atoms: if there are no others and the
parameter is not zero, the reduced energy is linear in the parameter, with the slope
that is returned. -/
theorem C57_pair_derivative (s : PSys) (h : ∀ p ∈ s.pairs, p.t1 < 2 ∧ p.t2 < 2) {x : ℝ}
    (hx : x ≠ 0) (y : ℝ) :
    s.beta * potentialEnergy (setEps s y) - s.beta * potentialEnergy (setEps s x) =
      (y - x) * pairDerivative (setEps s x) x := by
  have e1 : ∀ z, extEnergy (setEps s z) = extEnergy s := fun _ => rfl
  have e2 : ∀ z, (setEps s z).rest = s.rest := fun _ => rfl
  have e3 : (setEps s x).beta = s.beta := rfl
  unfold potentialEnergy pairDerivative
  rw [pairEnergy_set, pairEnergy_set, unlikeEnergy_set s x h, e1, e1, e2, e2, e3]
  field_simp
  ring

/-- C57.  With a third type of atoms it is not: the energy of pairs whose strength does not
depend on the parameter is included. -/
theorem C57_three_types_wrong : ∃ (s : PSys) (x y : ℝ), x ≠ 0 ∧
    s.beta * potentialEnergy (setEps s y) - s.beta * potentialEnergy (setEps s x) ≠
      (y - x) * pairDerivative (setEps s x) x := by
  refine ⟨⟨1, fun _ _ => 1, 0, [⟨0, 2, 1⟩], [], 0⟩, 1, 2, one_ne_zero, ?_⟩
  simp [potentialEnergy, pairEnergy, extEnergy, setEps, pairDerivative, unlikeEnergy]
  norm_num

/-- C57.  Perturbation of the external parameter. -/
theorem C57_ext_derivative (s : PSys) {x : ℝ} (hx : x ≠ 0) (y : ℝ) :
    s.beta * potentialEnergy (setExt s y) - s.beta * potentialEnergy (setExt s x) =
      (y - x) * extDerivative (setExt s x) x := by
  have e1 : ∀ z, pairEnergy (setExt s z) = pairEnergy s := fun _ => rfl
  have e2 : ∀ z, (setExt s z).rest = s.rest := fun _ => rfl
  have e3 : (setExt s x).beta = s.beta := rfl
  unfold potentialEnergy extDerivative
  rw [extLoop_eq, extEnergy_set, extEnergy_set, e1, e1, e2, e2, e3]
  field_simp
  ring

/-- C57.  The perturbation of both gives the second derivative with the wrong sign. -/
theorem C57_pairExternal_sign (s : PSys) {x : ℝ} (hx : x ≠ 0) (y : ℝ) :
    s.beta * potentialEnergy (setExt s y) - s.beta * potentialEnergy (setExt s x) =
      -((y - x) * pairExtDerivative1 (setExt s x) x) := by
  rw [C57_ext_derivative s hx y]
  unfold pairExtDerivative1 extDerivative
  ring

/-- C57.  Hence what is returned is not the derivative. -/
theorem C57_pairExternal_wrong : ∃ (s : PSys) (x y : ℝ), x ≠ 0 ∧
    s.beta * potentialEnergy (setExt s y) - s.beta * potentialEnergy (setExt s x) ≠
      (y - x) * pairExtDerivative1 (setExt s x) x := by
  refine ⟨⟨1, fun _ _ => 1, 0, [], [1], 0⟩, 1, 2, one_ne_zero, ?_⟩
  rw [C57_pairExternal_sign _ one_ne_zero]
  simp only [pairExtDerivative1, extLoop, setExt, List.foldl_cons, List.foldl_nil]
  norm_num

/-- C57.  `difference` is the change of the reduced energy if all parameters are linear. -/
theorem C57_difference (cur partner der : List ℝ) :
    difference cur partner der = ∑ k ∈ Finset.range cur.length, partner.getD k 0 * der.getD k 0 -
      ∑ k ∈ Finset.range cur.length, cur.getD k 0 * der.getD k 0 := by
  have key : ∀ m, (List.range m).foldl
      (fun d i => d + (partner.getD i 0 - cur.getD i 0) * der.getD i 0) 0 =
      ∑ k ∈ Finset.range m, partner.getD k 0 * der.getD k 0 -
        ∑ k ∈ Finset.range m, cur.getD k 0 * der.getD k 0 := by
    intro m
    induction m with
    | zero => simp
    | succ m ih =>
      rw [List.range_succ, List.foldl_append, ih, Finset.sum_range_succ, Finset.sum_range_succ]
      simp only [List.foldl_cons, List.foldl_nil]
      ring
  exact key _

end Verif.Replica
