/-
C70: an example with equal atoms, and a chain with two types of atoms for which reptation violates
detailed balance.
-/
import Verif.Cfb.ReptProps
import Verif.Cfb.Wrong

set_option autoImplicit false

namespace Verif.Cfb

open Verif.Boundary Verif.McCellList Verif.McCell Verif.McMoves MeasureTheory
open Verif.Cpp
open scoped ENNReal

section

variable {w : World} {lengths : Vec} {bravais : Fin 3 → Vec} {cutoff : ℝ}

/-- The probability of the move with a single trial, if the tail has no energy. -/
theorem reptProb_single (ok : w.OK lengths bravais cutoff) {c : Chain} {R : ℝ} (hc : c.OK w bravais R)
    (hmeas : Meas w c) (hcap : w.atoms.card < w.cellCap) (h2 : 2 ≤ c.nAtom) {bonded : Bool}
    (hm : Masks w c bonded) {e : ℝ} {law : ℕ → Measure ℝ} {cst : ℕ → ℝ≥0∞}
    (hlaw : ∀ i, LengthLaw w.beta (fun x => c.bondE x (c.bondType i)) R (law (c.bondType i))
      (cst (c.bondType i))) {s : Sys} (h : At w lengths cutoff s.cells s.pos)
    (ht : ∀ j, Site c j → s.typ (c.atom j) = c.atomType j)
    (hshort : s.pos ∈ EndShort w c R (-signOf e)) (hbl : Blind w c (signOf e)) {B : Set Conf}
    (hB : MeasurableSet B) {κ : ℕ → ℝ≥0∞} (hκ : κ = fun x => cst x * (area Set.univ)⁻¹)
    (hφ : ∀ q, (endStep w c s.typ R law κ (-signOf e)).φ q = 1) {H : Step}
    (hH : H = headStep w c (headType c (signOf e) s.typ) R law κ (signOf e)) :
    reptProb w c bonded 0 R law B e s = ∫⁻ x in cell w.gen,
      B.indicator 1 (slid c (signOf e) (Function.update s.pos (c.atom (endId c (-signOf e))) x)) *
      (H.ψ (Function.update s.pos (c.atom (endId c (-signOf e))) x) * ENNReal.ofReal (min 1
        (H.φ (Function.update s.pos (c.atom (endId c (-signOf e))) x)))) := by
  have hsg := signOf_cases e
  have hhd := endId_site h2 hsg
  have hHok : H.OK (cell w.gen) (reduce w.gen bravais) direction := by
    rw [hH, hκ]
    exact step_ok (w := slidWorld w c (signOf e)) (c := moved c (signOf e)) (slidWorld_ok ok)
      (moved_ok h2 hc hsg) ⟨hmeas.pair, hmeas.dsq, hmeas.ext, hmeas.dvec, hmeas.bondE, hmeas.angleE⟩
      hsg (hlaw _) hhd.1 hhd.2
  have hHa : H.a = c.atom (endId c (-signOf e)) := by
    rw [hH]
    change (moved c (signOf e)).atom (endId c (signOf e)) = _
    rw [moved_atom]
    unfold nextSite
    rw [if_pos rfl]
  have hHb : s.pos H.b ∈ cell w.gen := by
    rw [hH]
    change s.pos ((moved c (signOf e)).atom (endId c (signOf e) - signOf e)) ∈ _
    rw [moved_atom]
    exact h.unit (hc.mem _ (nextSite_site h2 hsg hhd.2))
  rw [reptProb_grow (m := 0) ok hc hcap h2 hm hlaw h ht hshort hbl B κ, ← hH]
  have hwt : ∀ us : Fin 0 → Vec, wt (reduce w.gen bravais) 0 (endStep w c s.typ R law κ (-signOf e))
      s.pos us = 1 := by
    intro us
    unfold wt
    rw [hφ]
    simp
  have hind : Measurable (Function.uncurry fun (z : Conf) (Wf : ℝ) =>
      B.indicator (1 : Conf → ℝ≥0∞) (slid c (signOf e) z) * ENNReal.ofReal (min 1 Wf)) :=
    (((measurable_one.indicator hB).comp slid_measurable).comp measurable_fst).mul
      (ENNReal.measurable_ofReal.comp (measurable_const.min measurable_snd))
  simp only [hwt, div_one]
  rw [lintegral_const, measure_univ, mul_one,
    growth (reduce_measurable ok.geo) (cell_measurable ok.geo) (fun x => (reduction ok.geo).mem x)
    [H] (by intro s' h; rw [List.mem_singleton.1 h]; exact hHok) (List.pairwise_singleton _ _) s.pos
    (by intro s' h; rw [List.mem_singleton.1 h]; exact hHb) _ hind]
  have hwH : ∀ q, weights (reduce w.gen bravais) 0 [H] q = [fun _ => H.φ q] := by
    intro q
    unfold weights
    rw [List.map_singleton]
    congr 1
    funext us
    unfold wt
    simp
  simp only [List.map_singleton, hwH, sweep, avgP, lintegral_const, measure_univ, mul_one, product,
    List.prod_singleton, Nat.cast_one, zero_add, one_mul, hHa]
  refine lintegral_congr fun x => ?_
  obtain ⟨q, hq⟩ : ∃ q, q = Function.update s.pos (c.atom (endId c (-signOf e))) x := ⟨_, rfl⟩
  rw [← hq]
  have hpos : ENNReal.ofReal (H.φ q) ≠ 0 := by
    rw [Ne, ENNReal.ofReal_eq_zero, not_le]
    exact hHok.φpos q
  rw [mul_assoc, mul_comm (ENNReal.ofReal (H.φ q)), ENNReal.div_mul_cancel hpos ENNReal.ofReal_ne_top]
  ring

end

/-! ### Equal atoms -/

theorem demo_uniform (f : ℝ → ℝ) : Uniform (demoChain f) where
  two := by norm_num [demoChain, triChain]
  atoms _ _ _ _ := rfl
  bonds _ _ := rfl

theorem tri_masks {pair : ℝ → ℕ → ℕ → ℝ} {bonded links : List Term} {c : Chain} (h3 : c.nAtom = 3)
    (ha : ∀ i, c.atom i = i.toNat) : Masks (tri pair bonded links) c true := by
  intro i hi b
  have hi0 := hi.1
  have hi1 := hi.2
  rw [h3] at hi1
  simp only [tri, decide_eq_true_eq, ha, true_and]
  constructor
  · rintro ⟨h, -, h'⟩
    exact ⟨b, ⟨by omega, by rw [h3]; omega⟩, by omega, by simp⟩
  · rintro ⟨j, hj, hj', rfl⟩
    have := hj.1
    have := hj.2
    omega

example (A B : Set Conf) (hA : MeasurableSet A) (hB : MeasurableSet B) (m : ℕ)
    (hAs : A ⊆ EndShort (demoWorld (100 * ·)) (demoChain (100 * ·)) (1 / 2) 1 ∩
      EndShort (demoWorld (100 * ·)) (demoChain (100 * ·)) (1 / 2) (-1))
    (hBs : B ⊆ EndShort (demoWorld (100 * ·)) (demoChain (100 * ·)) (1 / 2) 1 ∩
      EndShort (demoWorld (100 * ·)) (demoChain (100 * ·)) (1 / 2) (-1)) : ∃ st : Conf → Sys,
    reptation (demoWorld (100 * ·)) (demoChain (100 * ·)) true m (1 / 2) (triLaw fun x _ => 100 * x) st
      A B (fun _ _ => 1 / 2) =
    reptation (demoWorld (100 * ·)) (demoChain (100 * ·)) true m (1 / 2) (triLaw fun x _ => 100 * x) st
      B A (fun _ _ => 1 / 2) := by
  obtain ⟨st, hst⟩ := tri_state (pair := fun x _ _ => if x < 1 / 16 then 16 * x - 1 else 0)
    (bonded := demoTerms (100 * ·)) (links := [])
  exact ⟨st, C70_balance_partial (cst := fun _ => 1) (t := fun _ => 0) (demoWorld_ok _) triChain_ok
    (demoWorld_meas (measurable_const.mul measurable_id)) tri_card (demo_uniform _) (demo_linear _ _)
    (tri_masks rfl fun _ => rfl) m (fun i => triLaw_ok _) (fun _ _ => rfl) hst
    (fun b _ => demo_unit fun i => by norm_num) hA hB hAs hBs⟩

theorem tri_lenOf {pair : ℝ → ℕ → ℕ → ℝ} {bonded links : List Term} {c : Chain} (h3 : c.nAtom = 3)
    (ha : ∀ i, c.atom i = i.toNat) (q : Conf) :
    lenOf (tri pair bonded links) c 1 (endId c 1) q = Real.sqrt (Ortho.default.distanceSq (q 2) (q 1)) ∧
    lenOf (tri pair bonded links) c (-1) (endId c (-1)) q =
      Real.sqrt (Ortho.default.distanceSq (q 0) (q 1)) := by
  unfold lenOf endId
  rw [h3, ha, ha, ha, ha]
  exact ⟨rfl, rfl⟩

/-- Configurations with short bonds exist. -/
example : (fun a => ![1 / 4 + a / 10, 1 / 2, 1 / 2] : Conf) ∈
    EndShort (demoWorld (100 * ·)) (demoChain (100 * ·)) (1 / 2) 1 ∩
      EndShort (demoWorld (100 * ·)) (demoChain (100 * ·)) (1 / 2) (-1) := by
  have key : ∀ x y : ℝ, x - y = 1 / 10 ∨ x - y = - (1 / 10) →
      Real.sqrt (Ortho.default.distanceSq ![x, 1 / 2, 1 / 2] ![y, 1 / 2, 1 / 2]) = 1 / 10 := by
    intro x y h
    have e : Ortho.default.distanceSq ![x, 1 / 2, 1 / 2] ![y, 1 / 2, 1 / 2] = (1 / 10) ^ 2 := by
      rw [near_distanceSq]
      · rcases h with h | h <;> simp [h]
      · intro i
        fin_cases i <;> simp
        rcases h with h | h <;> rw [h] <;> norm_num [abs_le]
    rw [e, Real.sqrt_sq (by norm_num)]
  constructor
  · unfold EndShort
    rw [Set.mem_ofPred_eq, demoWorld, (tri_lenOf rfl (fun _ => rfl) _).1, key _ _ (by norm_num)]
    norm_num
  · unfold EndShort
    rw [Set.mem_ofPred_eq, demoWorld, (tri_lenOf rfl (fun _ => rfl) _).2, key _ _ (by norm_num)]
    norm_num

/-! ### Two types of atoms -/

/-- Atoms of type 1 repel each other. -/
noncomputable def heteroPair (x : ℝ) (t t' : ℕ) : ℝ := by
  classical exact if x < 1 / 16 ∧ t = 1 ∧ t' = 1 then 1 else 0

/-- A single molecule in the unit cube, without bonded energies. -/
noncomputable def heteroWorld : World := tri heteroPair [] []

/-- The molecule: one atom of type 0 and two of type 1. -/
noncomputable def heteroChain : Chain :=
  { triChain false 0 (fun _ _ => 0) (fun _ _ => 0) with atomType := fun i => if i = 0 then 0 else 1 }

/-- Types of its atoms. -/
def heteroTypes (a : ℕ) : ℕ := if a = 0 then 0 else 1

theorem hetero_ok : heteroWorld.OK Ortho.default.lengths Ortho.default.bravais (1 / 4) := by
  refine tri_ok ?_ ?_ (by intro x hx; cases hx) (by intro x hx; cases hx)
  · intro x t t' hx
    unfold heteroPair
    rw [if_neg]
    rintro ⟨h, -⟩
    norm_num at hx h
    linarith
  · intro x t t'
    unfold heteroPair
    exact if_congr (and_congr_right fun _ => and_comm) rfl rfl

theorem heteroChain_ok : heteroChain.OK heteroWorld Ortho.default.bravais (1 / 2) := by
  have h := triChain_ok (pair := heteroPair) (bonded := []) (links := []) (angles := false) (aty := 0)
    (bondE := fun _ _ => 0) (angleE := fun _ _ => 0)
  exact ⟨h.pos, h.wide, h.exact, h.wraps, h.inj, h.mem, h.image, h.normSq⟩

theorem hetero_meas : Meas heteroWorld heteroChain := by
  have h := tri_meas (pair := heteroPair) (bonded := []) (links := []) (angles := false) (aty := 0)
    (bondE := fun _ _ => 0) (angleE := fun _ _ => 0) (fun t t' => ?_) (fun _ => measurable_const)
    (fun _ => measurable_const)
  · exact ⟨h.pair, h.dsq, h.ext, h.dvec, h.bondE, h.angleE⟩
  · unfold heteroPair
    by_cases ht : t = 1 ∧ t' = 1
    · simp only [ht, and_true]
      exact Measurable.ite (measurableSet_lt measurable_id measurable_const) measurable_const
        measurable_const
    · simp only [ht, and_false, if_false]
      exact measurable_const

theorem hetero_state : ∃ st : Conf → Sys, ∀ q,
    (∀ b ∈ heteroWorld.atoms, q b ∈ cell heteroWorld.gen) →
    (st q).pos = q ∧ (st q).typ = heteroTypes ∧
      At heteroWorld Ortho.default.lengths (1 / 4) (st q).cells q := by
  obtain ⟨st, hst⟩ := tri_state (pair := heteroPair) (bonded := []) (links := [])
  exact ⟨fun q => { st q with typ := heteroTypes }, fun q hq =>
    ⟨(hst q hq).1, rfl, (hst q hq).2.2⟩⟩

theorem hetero_typ (j : ℤ) (hj : Site heteroChain j) :
    heteroTypes (heteroChain.atom j) = heteroChain.atomType j := by
  have := hj.1
  change (if j.toNat = 0 then 0 else 1) = (if j = 0 then 0 else 1)
  split <;> split <;> omega

/-- The molecule has no energy. -/
theorem hetero_free (q : Conf) {a b : ℕ} (ha : a < 3) (hb : b < 3) (hab : a ≠ b) :
    pairE heteroWorld q heteroTypes a b = 0 := by
  unfold pairE
  split
  · next h =>
    have h' : ¬ ((a + 1 = b ∨ b + 1 = a) ∧ a < 3 ∧ b < 3) := of_decide_eq_false h
    change heteroPair _ _ _ = 0
    unfold heteroPair heteroTypes
    rw [if_neg]
    rintro ⟨-, h1, h2⟩
    have h1' : a ≠ 0 := fun h => by rw [if_pos h] at h1; cases h1
    have h2' : b ≠ 0 := fun h => by rw [if_pos h] at h2; cases h2
    omega
  · rfl

theorem hetero_atoms {a : ℕ} : a ∈ heteroWorld.atoms ↔ a < 3 := by
  change a ∈ ({0, 1, 2} : Finset ℕ) ↔ _
  simp
  omega

theorem hetero_energy (q : Conf) : energy heteroWorld q heteroTypes = 0 := by
  unfold energy
  rw [Finset.sum_eq_zero]
  · simp [heteroWorld, tri]
  · intro a ha
    refine Finset.sum_eq_zero fun b hb => ?_
    split
    · next h => exact hetero_free q (hetero_atoms.1 ha) (hetero_atoms.1 hb) h.ne
    · rfl

theorem hetero_blind {sign : ℤ} (hs : sign = 1 ∨ sign = -1) : Blind heteroWorld heteroChain sign := by
  intro j hj p t
  have hj0 : j = 0 := by
    have h := List.mem_filter.1 hj
    obtain ⟨k, hk, rfl⟩ := mem_ids.1 h.1
    have h3 : heteroChain.nAtom = 3 := rfl
    rw [h3] at hk
    have h2 := of_decide_eq_true h.2
    have e : ∀ i : ℤ, heteroChain.atomType i = if i = 0 then 0 else 1 := fun _ => rfl
    rw [e, e] at h2
    by_contra hne
    rw [if_neg hne, if_neg (by omega)] at h2
    exact h2 rfl
  subst hj0
  have hext : ∀ x t, heteroWorld.ext x t = 0 := fun _ _ => rfl
  rw [hext, add_zero]
  unfold atomPairE
  refine Finset.sum_eq_zero fun b hb => ?_
  split
  · next hba =>
    unfold pairE
    rw [if_neg]
    have hb' := Finset.mem_sdiff.1 hb
    have hb3 := hetero_atoms.1 hb'.1
    change ¬ decide ((heteroChain.atom (headSide sign 0) + 1 = b ∨ _) ∧ _ ∧ b < 3) = false
    rw [decide_eq_false_iff_not, not_not]
    rcases hs with rfl | rfl
    · have e1 : heteroChain.atom (headSide 1 0) = 1 := rfl
      have e2 : heteroChain.atom (endId heteroChain (-1)) = 0 := rfl
      have h0 := hb'.2
      rw [e2, Finset.mem_singleton] at h0
      rw [e1] at hba ⊢
      omega
    · have e1 : heteroChain.atom (headSide (-1) 0) = 0 := rfl
      have e2 : heteroChain.atom (endId heteroChain (- -1)) = 2 := rfl
      have h0 := hb'.2
      rw [e2, Finset.mem_singleton] at h0
      rw [e1] at hba ⊢
      omega
  · rfl

theorem hetero_tail {sign : ℤ} (hs : sign = 1 ∨ sign = -1) (κ : ℕ → ℝ≥0∞) (law : ℕ → Measure ℝ)
    (q : Conf) : (endStep heteroWorld heteroChain heteroTypes (1 / 2) law κ sign).φ q = 1 := by
  change Real.exp (-heteroWorld.beta * restE heteroWorld heteroChain heteroTypes sign
    (endId heteroChain sign) q) = 1
  have : restE heteroWorld heteroChain heteroTypes sign (endId heteroChain sign) q = 0 := by
    unfold restE
    have h1 : hasAngle heteroChain sign (endId heteroChain sign) = false := rfl
    have hext : ∀ x t, heteroWorld.ext x t = 0 := fun _ _ => rfl
    rw [h1, hext]
    unfold pairWith
    rw [Finset.sum_eq_zero]
    · simp
    · intro b hb
      split
      · next hne =>
        refine hetero_free q ?_ (hetero_atoms.1 (Finset.mem_sdiff.1 hb).1) (Ne.symm hne)
        rcases hs with rfl | rfl
        · change 2 < 3; norm_num
        · change 0 < 3; norm_num
      · rfl
  rw [this, mul_zero, Real.exp_zero]

theorem hetero_label : slidLabel heteroChain 1 0 = 1 ∧ slidLabel heteroChain 1 1 = 2 ∧
    slidLabel heteroChain 1 2 = 0 ∧ slidLabel heteroChain (-1) 0 = 2 ∧
    slidLabel heteroChain (-1) 1 = 0 ∧ slidLabel heteroChain (-1) 2 = 1 := by
  have h : ∀ i : ℤ, 0 ≤ i → i < 3 → Site heteroChain i := fun i h0 h3 => ⟨h0, h3⟩
  have key : ∀ (sign i : ℤ), 0 ≤ i → i < 3 → slidLabel heteroChain sign (heteroChain.atom i) =
      heteroChain.atom (nextSite heteroChain sign i) := fun sign i h0 h3 =>
    slidLabel_atom heteroChain_ok (h i h0 h3)
  exact ⟨key 1 0 (by norm_num) (by norm_num), key 1 1 (by norm_num) (by norm_num),
    key 1 2 (by norm_num) (by norm_num), key (-1) 0 (by norm_num) (by norm_num),
    key (-1) 1 (by norm_num) (by norm_num), key (-1) 2 (by norm_num) (by norm_num)⟩

/-- The new head repels an atom that is about to get type 0. -/
theorem hetero_head (κ : ℕ → ℝ≥0∞) (law : ℕ → Measure ℝ) {H : Step}
    (hH : H = headStep heteroWorld heteroChain (headType heteroChain 1 heteroTypes) (1 / 2) law κ 1)
    {q : Conf} (h1 : Ortho.default.distanceSq (q 0) (q 1) < 1 / 16)
    (h2 : Ortho.default.distanceSq (q 0) (q 2) < (1 / 2) ^ 2) :
    H.φ q = Real.exp (-1) ∧ H.ψ q = κ 0 := by
  obtain ⟨-, -, -, l0, l1, l2⟩ := hetero_label
  have hτ : ∀ b, headType heteroChain 1 heteroTypes b = 1 := by
    intro b
    change Function.update heteroTypes 0 1 b = 1
    by_cases hb : b = 0
    · rw [hb, Function.update_self]
    · rw [Function.update_of_ne hb, heteroTypes, if_neg hb]
  constructor
  · rw [hH]
    change Real.exp (-(1 : ℝ) * restE (slidWorld heteroWorld heteroChain 1) (moved heteroChain 1)
      (headType heteroChain 1 heteroTypes) 1 2 q) = _
    have : restE (slidWorld heteroWorld heteroChain 1) (moved heteroChain 1)
      (headType heteroChain 1 heteroTypes) 1 2 q = 1 := by
      have e1 : hasAngle (moved heteroChain 1) 1 2 = false := rfl
      have hext : ∀ x t, (slidWorld heteroWorld heteroChain 1).ext x t = 0 := fun _ _ => rfl
      have hat : (slidWorld heteroWorld heteroChain 1).atoms = {0, 1, 2} := rfl
      have hmv : (moved heteroChain 1).atom 2 = 0 := rfl
      have hby : beyond (moved heteroChain 1) 1 2 = ∅ := by
        unfold beyond
        rw [Finset.image_eq_empty, Finset.filter_eq_empty_iff]
        intro j hj
        have h3 : (moved heteroChain 1).nAtom = 3 := rfl
        rw [Finset.mem_Ico, h3] at hj
        omega
      unfold restE
      rw [e1, hext, hmv, hby]
      unfold pairWith
      rw [hat, Finset.sdiff_empty, Finset.sum_insert (by simp), Finset.sum_insert (by simp),
        Finset.sum_singleton]
      have p1 : pairE (slidWorld heteroWorld heteroChain 1) q (headType heteroChain 1 heteroTypes) 0 1
          = 1 := by
        have m1 : (slidWorld heteroWorld heteroChain 1).masked 0 1 = false := by
          change heteroWorld.masked (slidLabel heteroChain (-1) 0) (slidLabel heteroChain (-1) 1) = false
          rw [l0, l1]
          rfl
        unfold pairE
        rw [if_pos m1, hτ, hτ]
        change heteroPair (Ortho.default.distanceSq (q 0) (q 1)) 1 1 = 1
        unfold heteroPair
        rw [if_pos ⟨h1, rfl, rfl⟩]
      have p2 : pairE (slidWorld heteroWorld heteroChain 1) q (headType heteroChain 1 heteroTypes) 0 2
          = 0 := by
        have m2 : (slidWorld heteroWorld heteroChain 1).masked 0 2 = true := by
          change heteroWorld.masked (slidLabel heteroChain (-1) 0) (slidLabel heteroChain (-1) 2) = true
          rw [l0, l2]
          rfl
        unfold pairE
        rw [m2, if_neg (by simp)]
      rw [p1, p2]
      simp
    rw [this, mul_one]
  · rw [hH]
    change κ 0 * (ite (Ortho.default.distanceSq (q 0) (q 2) < (1 / 2) ^ 2)
      (ENNReal.ofReal (Real.exp (-1 * 0))) 0) = _
    rw [if_pos h2, mul_zero, Real.exp_zero, ENNReal.ofReal_one, mul_one]

/-- The other way there is no such energy. -/
theorem hetero_back (κ : ℕ → ℝ≥0∞) (law : ℕ → Measure ℝ) {H : Step}
    (hH : H = headStep heteroWorld heteroChain (headType heteroChain (-1) heteroTypes) (1 / 2) law κ (-1))
    {q : Conf} (h2 : Ortho.default.distanceSq (q 2) (q 0) < (1 / 2) ^ 2) :
    H.φ q = 1 ∧ H.ψ q = κ 0 := by
  have hτ : headType heteroChain (-1) heteroTypes 2 = 0 := rfl
  constructor
  · rw [hH]
    change Real.exp (-(1 : ℝ) * restE (slidWorld heteroWorld heteroChain (-1)) (moved heteroChain (-1))
      (headType heteroChain (-1) heteroTypes) (-1) 0 q) = _
    have : restE (slidWorld heteroWorld heteroChain (-1)) (moved heteroChain (-1))
      (headType heteroChain (-1) heteroTypes) (-1) 0 q = 0 := by
      have e1 : hasAngle (moved heteroChain (-1)) (-1) 0 = false := rfl
      have hext : ∀ x t, (slidWorld heteroWorld heteroChain (-1)).ext x t = 0 := fun _ _ => rfl
      have hmv : (moved heteroChain (-1)).atom 0 = 2 := rfl
      unfold restE
      rw [e1, hext, hmv]
      unfold pairWith
      rw [Finset.sum_eq_zero]
      · simp
      · intro b hb
        split
        · unfold pairE
          split
          · rw [hτ]
            change heteroPair _ 0 _ = 0
            simp [heteroPair]
          · rfl
        · rfl
    rw [this, mul_zero, Real.exp_zero]
  · rw [hH]
    change κ 0 * (ite (Ortho.default.distanceSq (q 2) (q 0) < (1 / 2) ^ 2)
      (ENNReal.ofReal (Real.exp (-1 * 0))) 0) = _
    rw [if_pos h2, mul_zero, Real.exp_zero, ENNReal.ofReal_one, mul_one]

/-- Configurations with the atoms in three cubes. -/
def boxes (y₀ y₁ y₂ : Vec) : Set Conf := {q | q 0 ∈ box y₀ ∧ q 1 ∈ box y₁ ∧ q 2 ∈ box y₂}

theorem boxes_measurable (y₀ y₁ y₂ : Vec) : MeasurableSet (boxes y₀ y₁ y₂) :=
  MeasurableSet.inter ((measurable_pi_apply (X := fun _ : ℕ => Vec) 0) (box_measurable y₀))
    (MeasurableSet.inter ((measurable_pi_apply (X := fun _ : ℕ => Vec) 1) (box_measurable y₁))
      ((measurable_pi_apply (X := fun _ : ℕ => Vec) 2) (box_measurable y₂)))

theorem box_range {y x : Vec} (hy : y = left ∨ y = centre ∨ y = right) (hx : x ∈ box y) (i : Fin 3) :
    1 / 4 ≤ x i ∧ x i ≤ 3 / 4 := by
  have h := hx i (Set.mem_univ i)
  rw [Set.mem_Ioo] at h
  rcases hy with rfl | rfl | rfl <;> fin_cases i <;> simp [right, left, centre] at h ⊢ <;>
    constructor <;> linarith [h.1, h.2]

theorem side_cell {y x : Vec} (hy : y = left ∨ y = centre ∨ y = right) (hx : x ∈ box y) :
    x ∈ cell Ortho.default.toGen := by
  refine demo_unit fun i => ?_
  have h := box_range hy hx i
  constructor <;> linarith [h.1, h.2]

theorem side_dsq {y y' x x' : Vec} (hy : y = left ∨ y = centre ∨ y = right)
    (hy' : y' = left ∨ y' = centre ∨ y' = right) (hx : x ∈ box y) (hx' : x' ∈ box y') :
    Ortho.default.distanceSq x x' = (x 0 - x' 0) ^ 2 + (x 1 - x' 1) ^ 2 + (x 2 - x' 2) ^ 2 := by
  refine near_distanceSq fun i => ?_
  have h := box_range hy hx i
  have h' := box_range hy' hx' i
  rw [abs_le]
  constructor <;> linarith [h.1, h.2, h'.1, h'.2]

/-- Bonds between neighbouring cubes. -/
theorem side_bond {y x x' : Vec} (hy : y = left ∨ y = right) (hx : x ∈ box y) (hx' : x' ∈ box centre) :
    0 < Ortho.default.distanceSq x x' ∧ Ortho.default.distanceSq x x' < (1 / 2) ^ 2 := by
  rw [side_dsq (by tauto) (Or.inr (Or.inl rfl)) hx hx']
  have h := fun i => hx i (Set.mem_univ i)
  have h' := fun i => hx' i (Set.mem_univ i)
  simp only [Set.mem_Ioo] at h h'
  have a0 := h 0
  have a1 := h 1
  have a2 := h 2
  have b0 := h' 0
  have b1 := h' 1
  have b2 := h' 2
  rcases hy with rfl | rfl <;> simp [left, right, centre] at a0 a1 a2 b0 b1 b2 <;>
    constructor <;> nlinarith [sq_nonneg (x 1 - x' 1), sq_nonneg (x 2 - x' 2)]

theorem side_same {x x' : Vec} (hx : x ∈ box centre) (hx' : x' ∈ box centre) :
    Ortho.default.distanceSq x x' < 1 / 16 := by
  rw [side_dsq (Or.inr (Or.inl rfl)) (Or.inr (Or.inl rfl)) hx hx']
  have h := fun i => hx i (Set.mem_univ i)
  have h' := fun i => hx' i (Set.mem_univ i)
  simp only [Set.mem_Ioo, centre] at h h'
  have key : ∀ i, (x i - x' i) ^ 2 ≤ (1 / 10) ^ 2 := by
    intro i
    have a := h i
    have b := h' i
    refine sq_le_sq' ?_ ?_ <;> linarith [a.1, a.2, b.1, b.2]
  have k0 := key 0
  have k1 := key 1
  have k2 := key 2
  norm_num at k0 k1 k2 ⊢
  linarith

theorem left_right {x : Vec} (h : x ∈ box left) (h' : x ∈ box right) : False := by
  have a := h 0 (Set.mem_univ _)
  have b := h' 0 (Set.mem_univ _)
  simp [left, right] at a b
  linarith [a.2, b.1]

theorem dsq_symm (x x' : Vec) : Ortho.default.distanceSq x x' = Ortho.default.distanceSq x' x :=
  dsymm_ortho .default x x'

/-- The flow out of three cubes, if the probability of the move does not depend on the positions. -/
theorem hetero_flow {law : ℕ → Measure ℝ} {st : Conf → Sys}
    (hst : ∀ q, (∀ b ∈ heteroWorld.atoms, q b ∈ cell heteroWorld.gen) →
      (st q).pos = q ∧ (st q).typ = heteroTypes ∧
        At heteroWorld Ortho.default.lengths (1 / 4) (st q).cells q)
    {y₀ y₁ y₂ : Vec} (h0 : y₀ = left ∨ y₀ = centre ∨ y₀ = right)
    (h1 : y₁ = left ∨ y₁ = centre ∨ y₁ = right) (h2 : y₂ = left ∨ y₂ = centre ∨ y₂ = right)
    {B : Set Conf} {e : ℝ} {K : ℝ≥0∞}
    (hK : ∀ q, (∀ b ∈ heteroWorld.atoms, q b ∈ cell heteroWorld.gen) → q ∈ boxes y₀ y₁ y₂ →
      reptProb heteroWorld heteroChain true 0 (1 / 2) law B e (st q) = K) (p : Conf) :
    reptFlow heteroWorld heteroChain true 0 (1 / 2) law st (boxes y₀ y₁ y₂) B e p =
      K * volume (box y₂) * volume (box y₁) * volume (box y₀) := by
  unfold reptFlow
  have hC : MeasurableSet (cell heteroWorld.gen) := cell_measurable hetero_ok.geo
  have hch : chainAtoms heteroChain = [0, 1, 2] := rfl
  rw [hch, sweep_congr (H := fun q => (box y₀).indicator 1 (q 0) * ((box y₁).indicator 1 (q 1) *
    ((box y₂).indicator 1 (q 2) * K))) hC (fun q hq hin => ?_)]
  · simp only [sweep, Function.update_self, ne_eq,
      not_false_eq_true, Function.update_of_ne, zero_ne_one, OfNat.zero_ne_ofNat, OfNat.one_ne_ofNat]
    have hi : ∀ {y : Vec}, (y = left ∨ y = centre ∨ y = right) → ∀ k : ℝ≥0∞,
        ∫⁻ x in cell heteroWorld.gen, (box y).indicator 1 x * k = k * volume (box y) := by
      intro y hy k
      have : ∀ x, (box y).indicator (1 : Vec → ℝ≥0∞) x * k = (box y).indicator (fun _ => k) x := by
        intro x
        by_cases hx : x ∈ box y
        · rw [Set.indicator_of_mem hx, Set.indicator_of_mem hx, Pi.one_apply, one_mul]
        · rw [Set.indicator_of_notMem hx, Set.indicator_of_notMem hx, zero_mul]
      simp only [this]
      rw [lintegral_indicator (box_measurable y), Measure.restrict_restrict (box_measurable y),
        setLIntegral_const, Set.inter_eq_left.2 (show box y ⊆ cell heteroWorld.gen from fun x hx => side_cell hy hx)]
    have hm : ∀ y : Vec, Measurable ((box y).indicator (1 : Vec → ℝ≥0∞)) := fun y =>
      measurable_one.indicator (box_measurable y)
    have hb : ∀ x : Vec, (box y₀).indicator (1 : Vec → ℝ≥0∞) x ≠ ∞ := by
      intro x
      by_cases hx : x ∈ box y₀
      · rw [Set.indicator_of_mem hx]; simp
      · rw [Set.indicator_of_notMem hx]; simp
    have hb1 : ∀ x : Vec, (box y₁).indicator (1 : Vec → ℝ≥0∞) x ≠ ∞ := by
      intro x
      by_cases hx : x ∈ box y₁
      · rw [Set.indicator_of_mem hx]; simp
      · rw [Set.indicator_of_notMem hx]; simp
    simp only [lintegral_const_mul' _ _ (hb _), lintegral_const_mul' _ _ (hb1 _), hi h2, hi h1, hi h0]
  · by_cases hq' : q ∈ boxes y₀ y₁ y₂
    · have hcell : ∀ b ∈ heteroWorld.atoms, q b ∈ cell heteroWorld.gen := by
        intro b hb
        have := hetero_atoms.1 hb
        exact hin b (by simp; omega)
      obtain ⟨g1, g2, -⟩ := hst q hcell
      rw [Set.indicator_of_mem hq', Set.indicator_of_mem hq'.1, Set.indicator_of_mem hq'.2.1,
        Set.indicator_of_mem hq'.2.2, hK q hcell hq']
      unfold boltzmannWeight
      rw [g1, g2, hetero_energy]
      simp
    · rw [Set.indicator_of_notMem hq', zero_mul, zero_mul]
      by_cases a0 : q 0 ∈ box y₀
      · by_cases a1 : q 1 ∈ box y₁
        · rw [Set.indicator_of_notMem (s := box y₂) (fun a2 => hq' ⟨a0, a1, a2⟩)]
          simp
        · rw [Set.indicator_of_notMem a1]
          simp
      · rw [Set.indicator_of_notMem a0]
        simp

/-- Where the chain is before and after the move. -/
def before : Set Conf := boxes left centre right
def after : Set Conf := boxes centre right centre

theorem before_short (sign : ℤ) (hs : sign = 1 ∨ sign = -1) :
    before ⊆ EndShort heteroWorld heteroChain (1 / 2) sign := by
  intro q hq
  obtain ⟨h0, h1, h2⟩ := hq
  unfold EndShort
  rw [Set.mem_ofPred_eq]
  rcases hs with rfl | rfl
  · rw [heteroWorld, (tri_lenOf rfl (fun _ => rfl) _).1]
    have hb := side_bond (Or.inr rfl) h2 h1
    exact ⟨Real.sqrt_pos.2 hb.1, (Real.sqrt_lt' (by norm_num)).2 hb.2⟩
  · rw [heteroWorld, (tri_lenOf rfl (fun _ => rfl) _).2]
    have hb := side_bond (Or.inl rfl) h0 h1
    exact ⟨Real.sqrt_pos.2 hb.1, (Real.sqrt_lt' (by norm_num)).2 hb.2⟩

theorem after_short (sign : ℤ) (hs : sign = 1 ∨ sign = -1) :
    after ⊆ EndShort heteroWorld heteroChain (1 / 2) sign := by
  intro q hq
  obtain ⟨h0, h1, h2⟩ := hq
  unfold EndShort
  rw [Set.mem_ofPred_eq]
  rcases hs with rfl | rfl
  · rw [heteroWorld, (tri_lenOf rfl (fun _ => rfl) _).1, dsq_symm]
    have hb := side_bond (Or.inr rfl) h1 h2
    exact ⟨Real.sqrt_pos.2 hb.1, (Real.sqrt_lt' (by norm_num)).2 hb.2⟩
  · rw [heteroWorld, (tri_lenOf rfl (fun _ => rfl) _).2, dsq_symm]
    have hb := side_bond (Or.inr rfl) h1 h0
    exact ⟨Real.sqrt_pos.2 hb.1, (Real.sqrt_lt' (by norm_num)).2 hb.2⟩

section

variable {st : Conf → Sys}

/-- The probability of a move into the cubes, from a configuration for which the new end has to be in
one of them. -/
theorem hetero_prob (hst : ∀ q, (∀ b ∈ heteroWorld.atoms, q b ∈ cell heteroWorld.gen) →
      (st q).pos = q ∧ (st q).typ = heteroTypes ∧
        At heteroWorld Ortho.default.lengths (1 / 4) (st q).cells q) {q : Conf}
    (hq : ∀ b ∈ heteroWorld.atoms, q b ∈ cell heteroWorld.gen) {e : ℝ} {B : Set Conf} (hB : MeasurableSet B)
    (hs : q ∈ EndShort heteroWorld heteroChain (1 / 2) (-signOf e)) {H : Step}
    (hH : H = headStep heteroWorld heteroChain (headType heteroChain (signOf e) heteroTypes) (1 / 2)
      (triLaw fun _ _ => 0) (fun _ => 1 * (area Set.univ)⁻¹) (signOf e)) :
    reptProb heteroWorld heteroChain true 0 (1 / 2) (triLaw fun _ _ => 0) B e (st q) =
      ∫⁻ x in cell heteroWorld.gen, B.indicator 1 (slid heteroChain (signOf e)
        (Function.update q (heteroChain.atom (endId heteroChain (-signOf e))) x)) *
      (H.ψ (Function.update q (heteroChain.atom (endId heteroChain (-signOf e))) x) *
        ENNReal.ofReal (min 1
          (H.φ (Function.update q (heteroChain.atom (endId heteroChain (-signOf e))) x)))) := by
  obtain ⟨g1, g2, g3⟩ := hst q hq
  have h := reptProb_single (cst := fun _ => 1) (e := e) (s := st q) hetero_ok heteroChain_ok hetero_meas
    tri_card (by norm_num [heteroChain, triChain]) (tri_masks (c := heteroChain) rfl fun _ => rfl)
    (fun i => triLaw_ok _) (by rw [g1]; exact g3) (by rw [g2]; exact hetero_typ)
    (by rw [g1]; exact hs) (hetero_blind (signOf_cases e)) hB (H := H) rfl
    (fun q => by rw [g2]; exact hetero_tail (neg_cases (signOf_cases e)) _ _ _)
    (by rw [g2]; exact hH)
  rw [g1] at h
  exact h

theorem box_integral {y : Vec} (hy : y = left ∨ y = centre ∨ y = right) {F : Vec → ℝ≥0∞} {K : ℝ≥0∞}
    (hF : ∀ x ∈ box y, F x = K) (hF' : ∀ x, x ∉ box y → F x = 0) :
    ∫⁻ x in cell heteroWorld.gen, F x = K * volume (box y) := by
  have : ∀ x, F x = (box y).indicator (fun _ => K) x := by
    intro x
    by_cases hx : x ∈ box y
    · rw [Set.indicator_of_mem hx, hF x hx]
    · rw [Set.indicator_of_notMem hx, hF' x hx]
  simp only [this]
  rw [lintegral_indicator (box_measurable y), Measure.restrict_restrict (box_measurable y),
    setLIntegral_const, Set.inter_eq_left.2 (show box y ⊆ cell heteroWorld.gen from fun x hx => side_cell hy hx)]

theorem slid_forth (q : Conf) : slid heteroChain 1 q 0 = q 1 ∧ slid heteroChain 1 q 1 = q 2 ∧
    slid heteroChain 1 q 2 = q 0 := by
  obtain ⟨l0, l1, l2, -⟩ := hetero_label
  unfold slid
  rw [l0, l1, l2]
  exact ⟨rfl, rfl, rfl⟩

theorem slid_back (q : Conf) : slid heteroChain (-1) q 0 = q 2 ∧ slid heteroChain (-1) q 1 = q 0 ∧
    slid heteroChain (-1) q 2 = q 1 := by
  obtain ⟨-, -, -, l0, l1, l2⟩ := hetero_label
  unfold slid
  rw [l0, l1, l2]
  exact ⟨rfl, rfl, rfl⟩

variable (hst : ∀ q, (∀ b ∈ heteroWorld.atoms, q b ∈ cell heteroWorld.gen) →
      (st q).pos = q ∧ (st q).typ = heteroTypes ∧
        At heteroWorld Ortho.default.lengths (1 / 4) (st q).cells q)
include hst

theorem flow_forth {e : ℝ} (he : signOf e = 1) (p : Conf) :
    reptFlow heteroWorld heteroChain true 0 (1 / 2) (triLaw fun _ _ => 0) st before after e p =
      1 * (area Set.univ)⁻¹ * ENNReal.ofReal (Real.exp (-1)) * volume (box centre) * volume (box right) *
        volume (box centre) * volume (box left) := by
  refine hetero_flow hst (Or.inl rfl) (Or.inr (Or.inl rfl)) (Or.inr (Or.inr rfl)) (fun q hq hqb => ?_) p
  rw [hetero_prob (B := after) hst hq (boxes_measurable _ _ _)
    (before_short _ (neg_cases (signOf_cases e)) hqb) rfl, he]
  obtain ⟨h0, h1, h2⟩ := hqb
  have ha : heteroChain.atom (endId heteroChain (-1)) = 0 := rfl
  rw [ha]
  refine box_integral (Or.inr (Or.inl rfl)) (fun x hx => ?_) fun x hx => ?_
  · obtain ⟨z, hz⟩ : ∃ z, z = Function.update q 0 x := ⟨_, rfl⟩
    have z0 : z 0 = x := by rw [hz, Function.update_self]
    have z1 : z 1 = q 1 := by rw [hz, Function.update_of_ne (by norm_num)]
    have z2 : z 2 = q 2 := by rw [hz, Function.update_of_ne (by norm_num)]
    obtain ⟨s0, s1, s2⟩ := slid_forth z
    rw [← hz, Set.indicator_of_mem (show slid heteroChain 1 z ∈ after from
      ⟨by rw [s0, z1]; exact h1, by rw [s1, z2]; exact h2, by rw [s2, z0]; exact hx⟩), Pi.one_apply, one_mul]
    obtain ⟨e1, e2⟩ := hetero_head (fun _ => 1 * (area Set.univ)⁻¹) (triLaw fun _ _ => 0) rfl
      (q := z) (by rw [z0, z1]; exact side_same hx h1)
      (by rw [z0, z2, dsq_symm]; exact (side_bond (Or.inr rfl) h2 hx).2)
    rw [e1, e2, min_eq_right (Real.exp_le_one_iff.2 (by norm_num))]
  · rw [Set.indicator_of_notMem, zero_mul]
    intro h
    have := h.2.2
    rw [(slid_forth _).2.2, Function.update_self] at this
    exact hx this

theorem flow_back {e : ℝ} (he : signOf e = -1) (p : Conf) :
    reptFlow heteroWorld heteroChain true 0 (1 / 2) (triLaw fun _ _ => 0) st after before e p =
      1 * (area Set.univ)⁻¹ * volume (box left) * volume (box centre) * volume (box right) *
        volume (box centre) := by
  refine hetero_flow hst (Or.inr (Or.inl rfl)) (Or.inr (Or.inr rfl)) (Or.inr (Or.inl rfl))
    (fun q hq hqb => ?_) p
  rw [hetero_prob (B := before) hst hq (boxes_measurable _ _ _)
    (after_short _ (neg_cases (signOf_cases e)) hqb) rfl, he]
  obtain ⟨h0, h1, h2⟩ := hqb
  have ha : heteroChain.atom (endId heteroChain (- -1)) = 2 := rfl
  rw [ha]
  refine box_integral (Or.inl rfl) (fun x hx => ?_) fun x hx => ?_
  · obtain ⟨z, hz⟩ : ∃ z, z = Function.update q 2 x := ⟨_, rfl⟩
    have z2 : z 2 = x := by rw [hz, Function.update_self]
    have z0 : z 0 = q 0 := by rw [hz, Function.update_of_ne (by norm_num)]
    have z1 : z 1 = q 1 := by rw [hz, Function.update_of_ne (by norm_num)]
    obtain ⟨s0, s1, s2⟩ := slid_back z
    rw [← hz, Set.indicator_of_mem (show slid heteroChain (-1) z ∈ before from
      ⟨by rw [s0, z2]; exact hx, by rw [s1, z0]; exact h0, by rw [s2, z1]; exact h1⟩), Pi.one_apply, one_mul]
    obtain ⟨e1, e2⟩ := hetero_back (fun _ => 1 * (area Set.univ)⁻¹) (triLaw fun _ _ => 0) rfl
      (q := z) (by rw [z2, z0]; exact (side_bond (Or.inl rfl) hx h0).2)
    rw [e1, e2, min_self, ENNReal.ofReal_one, mul_one]
  · rw [Set.indicator_of_notMem, zero_mul]
    intro h
    have := h.1
    rw [(slid_back _).1, Function.update_self] at this
    exact hx this

theorem flow_none_back {e : ℝ} (he : signOf e = -1) (p : Conf) :
    reptFlow heteroWorld heteroChain true 0 (1 / 2) (triLaw fun _ _ => 0) st before after e p = 0 := by
  rw [before, hetero_flow (K := 0) hst (Or.inl rfl) (Or.inr (Or.inl rfl)) (Or.inr (Or.inr rfl))
    (fun q hq hqb => ?_) p]
  · simp
  · rw [hetero_prob (B := after) hst hq (boxes_measurable _ _ _)
      (before_short _ (neg_cases (signOf_cases e)) hqb) rfl, he]
    obtain ⟨h0, h1, h2⟩ := hqb
    have ha : heteroChain.atom (endId heteroChain (- -1)) = 2 := rfl
    rw [ha]
    refine (box_integral (Or.inl rfl) (K := 0) (fun x hx => ?_) fun x hx => ?_).trans (zero_mul _) <;>
    · rw [Set.indicator_of_notMem, zero_mul]
      intro h
      have := h.2.1
      rw [(slid_back _).2.1, Function.update_of_ne (by norm_num)] at this
      exact left_right h0 this

theorem flow_none_forth {e : ℝ} (he : signOf e = 1) (p : Conf) :
    reptFlow heteroWorld heteroChain true 0 (1 / 2) (triLaw fun _ _ => 0) st after before e p = 0 := by
  rw [after, hetero_flow (K := 0) hst (Or.inr (Or.inl rfl)) (Or.inr (Or.inr rfl)) (Or.inr (Or.inl rfl))
    (fun q hq hqb => ?_) p]
  · simp
  · rw [hetero_prob (B := before) hst hq (boxes_measurable _ _ _)
      (after_short _ (neg_cases (signOf_cases e)) hqb) rfl, he]
    obtain ⟨h0, h1, h2⟩ := hqb
    have ha : heteroChain.atom (endId heteroChain (-1)) = 0 := rfl
    rw [ha]
    refine (box_integral (Or.inl rfl) (K := 0) (fun x hx => ?_) fun x hx => ?_).trans (zero_mul _) <;>
    · rw [Set.indicator_of_notMem, zero_mul]
      intro h
      have := h.1
      rw [(slid_forth _).1, Function.update_of_ne (by norm_num)] at this
      exact left_right this h1

end

/-- **C70, violated by two types of atoms.**  A chain with an atom of type 0 and two atoms of type 1
that repel each other, without any other interaction: the new head is weighted with the energy of its
interaction with an atom that gets type 0 in the same move, and the factor for the change of types does
not correct this, since the new head is in no cell.  Flows from `A` to `B` and back differ although all
configurations have the same energy and all hypotheses of `C70_balance_partial` but equal types are
met. -/
theorem C70_junction_violated : ∃ (w : World) (c : Chain) (t : ℕ → ℕ) (st : Conf → Sys) (A B : Set Conf)
    (p : Conf), w.OK Ortho.default.lengths Ortho.default.bravais (1 / 4) ∧
    c.OK w Ortho.default.bravais (1 / 2) ∧ Meas w c ∧ w.atoms.card < w.cellCap ∧ 2 ≤ c.nAtom ∧
    (∀ i j, c.bondType i = c.bondType j) ∧ Masks w c true ∧
    (∀ i, LengthLaw w.beta (fun x => c.bondE x (c.bondType i)) (1 / 2)
      (triLaw (fun _ _ => 0) (c.bondType i)) 1) ∧
    (∀ j, Site c j → t (c.atom j) = c.atomType j) ∧
    (∀ q, (∀ b ∈ w.atoms, q b ∈ cell w.gen) →
      (st q).pos = q ∧ (st q).typ = t ∧ At w Ortho.default.lengths (1 / 4) (st q).cells q) ∧
    (∀ b, p b ∈ cell w.gen) ∧ MeasurableSet A ∧ MeasurableSet B ∧
    A ⊆ EndShort w c (1 / 2) 1 ∩ EndShort w c (1 / 2) (-1) ∧
    B ⊆ EndShort w c (1 / 2) 1 ∩ EndShort w c (1 / 2) (-1) ∧
    (∀ q, energy w q t = 0) ∧
    reptation w c true 0 (1 / 2) (triLaw fun _ _ => 0) st A B p ≠
      reptation w c true 0 (1 / 2) (triLaw fun _ _ => 0) st B A p := by
  obtain ⟨st, hst⟩ := hetero_state
  refine ⟨heteroWorld, heteroChain, heteroTypes, st, before, after, start, hetero_ok, heteroChain_ok,
    hetero_meas, tri_card, by norm_num [heteroChain, triChain], fun _ _ => rfl,
    tri_masks rfl fun _ => rfl, fun i => triLaw_ok _, hetero_typ, hst, start_cell,
    boxes_measurable _ _ _, boxes_measurable _ _ _,
    fun q hq => ⟨before_short _ (Or.inl rfl) hq, before_short _ (Or.inr rfl) hq⟩,
    fun q hq => ⟨after_short _ (Or.inl rfl) hq, after_short _ (Or.inr rfl) hq⟩, hetero_energy, ?_⟩
  have hpos : ∀ e : ℝ, 1 / 2 < e → signOf e = 1 := fun e he => if_pos he
  have hneg : ∀ e : ℝ, ¬ 1 / 2 < e → signOf e = -1 := fun e he => if_neg he
  obtain ⟨V, hV⟩ : ∃ V, V = ENNReal.ofReal (1 / 10) ^ 3 := ⟨_, rfl⟩
  have hV0 : V ≠ 0 := by
    rw [hV]
    exact pow_ne_zero _ (by rw [Ne, ENNReal.ofReal_eq_zero, not_le]; norm_num)
  have hV1 : V ≠ ∞ := by rw [hV]; exact ENNReal.pow_ne_top ENNReal.ofReal_ne_top
  obtain ⟨K, hK⟩ : ∃ K, K = (area Set.univ)⁻¹ * V ^ 4 := ⟨_, rfl⟩
  have hK0 : K ≠ 0 := by
    rw [hK]
    exact mul_ne_zero (ENNReal.inv_ne_zero.2 area_ne_top) (pow_ne_zero _ hV0)
  have hK1 : K ≠ ∞ := by
    rw [hK]
    exact ENNReal.mul_ne_top (ENNReal.inv_ne_top.2 area_ne_zero) (ENNReal.pow_ne_top hV1)
  have e1 : reptation heteroWorld heteroChain true 0 (1 / 2) (triLaw fun _ _ => 0) st before after start =
      ENNReal.ofReal (Real.exp (-1)) * K * ENNReal.ofReal (1 / 2) := by
    unfold reptation
    have : ∀ e : ℝ, reptFlow heteroWorld heteroChain true 0 (1 / 2) (triLaw fun _ _ => 0) st before after
        e start = (Set.Ioi (1 / 2)).indicator (fun _ => ENNReal.ofReal (Real.exp (-1)) * K) e := by
      intro e
      by_cases he : 1 / 2 < e
      · rw [flow_forth hst (hpos e he), Set.indicator_of_mem (show e ∈ Set.Ioi _ from he), box_volume,
          box_volume, box_volume, ← hV, hK]
        ring
      · rw [flow_none_back hst (hneg e he), Set.indicator_of_notMem (show e ∉ Set.Ioi _ from he)]
    simp only [this]
    rw [lintegral_indicator measurableSet_Ioi, Measure.restrict_restrict measurableSet_Ioi,
      setLIntegral_const]
    have hs : Set.Ioi (1 / 2 : ℝ) ∩ Set.Ico 0 1 = Set.Ioo (1 / 2) 1 := by
      ext x
      simp only [Set.mem_inter_iff, Set.mem_Ioi, Set.mem_Ico, Set.mem_Ioo]
      exact ⟨fun h => ⟨h.1, h.2.2⟩, fun h => ⟨h.1, by linarith [h.1], h.2⟩⟩
    rw [hs, Real.volume_Ioo]
    norm_num
  have e2 : reptation heteroWorld heteroChain true 0 (1 / 2) (triLaw fun _ _ => 0) st after before start =
      K * ENNReal.ofReal (1 / 2) := by
    unfold reptation
    have : ∀ e : ℝ, reptFlow heteroWorld heteroChain true 0 (1 / 2) (triLaw fun _ _ => 0) st after before
        e start = (Set.Iic (1 / 2)).indicator (fun _ => K) e := by
      intro e
      by_cases he : 1 / 2 < e
      · rw [flow_none_forth hst (hpos e he), Set.indicator_of_notMem (fun h => by
          exact absurd (show e ≤ 1 / 2 from h) (not_le.2 he))]
      · rw [flow_back hst (hneg e he), Set.indicator_of_mem (show e ∈ Set.Iic _ from not_lt.1 he), box_volume,
          box_volume, box_volume, ← hV, hK]
        ring
    simp only [this]
    rw [lintegral_indicator measurableSet_Iic, Measure.restrict_restrict measurableSet_Iic,
      setLIntegral_const]
    have hs : Set.Iic (1 / 2 : ℝ) ∩ Set.Ico 0 1 = Set.Icc 0 (1 / 2) := by
      ext x
      simp only [Set.mem_inter_iff, Set.mem_Iic, Set.mem_Ico, Set.mem_Icc]
      exact ⟨fun h => ⟨h.2.1, h.1⟩, fun h => ⟨h.2, h.1, by linarith [h.2]⟩⟩
    rw [hs, Real.volume_Icc]
    norm_num
  rw [e1, e2]
  intro h
  have h2 : ENNReal.ofReal (1 / 2) ≠ 0 := by rw [Ne, ENNReal.ofReal_eq_zero, not_le]; norm_num
  rw [ENNReal.mul_left_inj h2 ENNReal.ofReal_ne_top] at h
  nth_rewrite 2 [← one_mul K] at h
  rw [ENNReal.mul_left_inj hK0 hK1, ENNReal.ofReal_eq_one, Real.exp_eq_one_iff] at h
  norm_num at h

/-- The hypotheses of `C70_move` and `C70_factor` are met by this chain, with types that do change. -/
theorem hetero_shifts : Shifts heteroChain 1 heteroTypes fun a => if a ≤ 1 then 0 else 1 := by
  constructor
  · intro j hj hj'
    have h0 := hj.1
    have h1 : j < 3 := hj.2
    have h2 : j ≠ 0 := hj'
    change (if j.toNat ≤ 1 then 0 else 1) = (if j - 1 = 0 then 0 else 1)
    split <;> split <;> omega
  · intro b hb
    have h : ∀ j : ℤ, 0 ≤ j → j < 3 → b ≠ j.toNat := fun j h0 h3 => hb j ⟨h0, h3⟩
    have h0 := h 0 (by norm_num) (by norm_num)
    have h1 := h 1 (by norm_num) (by norm_num)
    change b ≠ 0 at h0
    change b ≠ 1 at h1
    unfold heteroTypes
    dsimp only
    rw [if_neg (by omega), if_neg h0]

example (v : ℝ) {q : Conf} (hq : q ∈ before) : ∃ s s' : Sys, s.pos = q ∧
    reptate heteroWorld heteroChain true 1 [] (1 / 10, [![1, 0, 0]], 0) v s = .ok (heteroWorld, s',
      metropolis (Real.exp (-heteroWorld.beta *
      (restOf heteroWorld (heteroChain.atom (endId heteroChain (-signOf 1))) s.pos
        (fun a => if a ≤ 1 then 0 else 1) -
        restOf heteroWorld (heteroChain.atom (endId heteroChain (-signOf 1))) s.pos s.typ)) *
      (headGrown heteroWorld Ortho.default.bravais heteroChain (headType heteroChain (signOf 1) s.typ)
        (signOf 1) (1 / 10, [![1, 0, 0]], 0) s.pos).2 /
      tailW heteroWorld Ortho.default.bravais heteroChain s.typ (signOf 1) s.pos []) v) := by
  obtain ⟨st, hst⟩ := hetero_state
  have h1 : signOf 1 = 1 := if_pos (by norm_num)
  have hin : ∀ b ∈ heteroWorld.atoms, q b ∈ cell heteroWorld.gen := by
    intro b hb
    have := hetero_atoms.1 hb
    interval_cases b
    · exact side_cell (Or.inl rfl) hq.1
    · exact side_cell (Or.inr (Or.inl rfl)) hq.2.1
    · exact side_cell (Or.inr (Or.inr rfl)) hq.2.2
  obtain ⟨g1, g2, g3⟩ := hst q hin
  obtain ⟨s', hs'⟩ := C70_factor (R := 1 / 2) (k := 1) (e := 1) (us := [])
    (g := (1 / 10, [![1, 0, 0]], 0)) (s := st q)
    hetero_ok heteroChain_ok tri_card (by norm_num [heteroChain, triChain])
    (tri_masks (c := heteroChain) rfl fun _ => rfl) one_pos (by rw [g1]; exact g3)
    (by rw [g2]; exact hetero_typ) (by rw [g1, h1]; exact before_short _ (Or.inr rfl) hq) (by simp)
    (by unfold Draw; simp [normSq]; norm_num) v (by rw [h1, g2]; exact hetero_shifts)
  exact ⟨st q, s', g1, hs'⟩

end Verif.Cfb
