/-
C62 for the bond potentials of the program: the random lengths of harmonic bonds have the
distribution that configurational-bias moves need.
-/
import Verif.Cfb.Lengths
import Verif.Cfb.Demo

set_option autoImplicit false

namespace Verif.Cfb

open Verif.Boundary Verif.McCellList Verif.McCell Verif.McMoves MeasureTheory ProbabilityTheory
open Verif.Cpp
open scoped ENNReal

variable {w : World} {lengths : Vec} {bravais : Fin 3 → Vec} {cutoff : ℝ}

/-- Detailed balance if every bond type has a law of lengths. -/
theorem end_balance (ok : w.OK lengths bravais cutoff) {c : Chain} {R : ℝ} (hc : c.OK w bravais R)
    (hm : Meas w c) (hcap : w.atoms.card < w.cellCap) {n : ℕ} (m : ℕ) (hn : (n : ℤ) < c.nAtom) {e : ℝ}
    (hl : Linear w c (regrown c n (signOf e))) {law : ℕ → Measure ℝ}
    (hlaw : ∀ i ∈ regrown c n (signOf e), ∃ cst, cst ≠ 0 ∧ cst ≠ ∞ ∧ LengthLaw w.beta
      (fun x => c.bondE x (c.bondType (bondId (signOf e) i))) R (law (c.bondType (bondId (signOf e) i))) cst)
    {t : ℕ → ℕ} (ht : ∀ j, Site c j → t (c.atom j) = c.atomType j)
    {st : Conf → Sys} (hst : ∀ q, (∀ b ∈ w.atoms, q b ∈ cell w.gen) →
      (st q).pos = q ∧ (st q).typ = t ∧ At w lengths cutoff (st q).cells q)
    {p : Conf} (hp : ∀ b ∈ w.atoms, p b ∈ cell w.gen)
    {A B : Set Conf} (hA : MeasurableSet A) (hB : MeasurableSet B)
    (hAs : A ⊆ Short w c n e R) (hBs : B ⊆ Short w c n e R) :
    endFlow w c n m e R law st A B p = endFlow w c n m e R law st B A p := by
  classical
  obtain ⟨cst, hcst⟩ : ∃ cst : ℕ → ℝ≥0∞, cst = fun t =>
    if h : ∃ k, k ≠ 0 ∧ k ≠ ∞ ∧ LengthLaw w.beta (fun x => c.bondE x t) R (law t) k then h.choose else 1 :=
    ⟨_, rfl⟩
  refine C62_end_partial (cst := cst) ok hc hm hcap m hn hl ?_ ?_ ht hst hp hA hB hAs hBs
  · intro i hi
    have h := hlaw i hi
    have e1 : cst (c.bondType (bondId (signOf e) i)) = h.choose := by rw [hcst]; exact dif_pos h
    rw [e1]
    exact h.choose_spec.2.2
  · intro x
    rw [hcst]
    dsimp only
    split
    · next h => exact ⟨h.choose_spec.1, h.choose_spec.2.1⟩
    · exact ⟨one_ne_zero, ENNReal.one_ne_top⟩

/-- **C62 (harmonic bonds).**  Detailed balance of configurational-bias moves of chain ends with the
lengths generated by `HarmonicBond::randomBondLength`, for bonds shorter than half the cell and than
seven standard deviations beyond the rest length. -/
theorem C62_harmonic_partial (ok : w.OK lengths bravais cutoff) {c : Chain} {R : ℝ}
    (hc : c.OK w bravais R) (hm : Meas w c) (hcap : w.atoms.card < w.cellCap) {n : ℕ} (m : ℕ)
    (hn : (n : ℤ) < c.nAtom) {e : ℝ} (hl : Linear w c (regrown c n (signOf e))) (hbeta : 0 < w.beta)
    (s : Bond.Harm) (hE : ∀ x t, c.bondE x t = s.energy x (t : ℤ))
    (hs : ∀ i ∈ regrown c n (signOf e), 0 < s.kappa (c.bondType (bondId (signOf e) i)) ∧
      0 ≤ s.length (c.bondType (bondId (signOf e) i)) ∧
      R ≤ harmMax s w.beta (c.bondType (bondId (signOf e) i)))
    {law : ℕ → Measure ℝ}
    (hlaw : ∀ t : ℕ, IsLaw (law t) ((gaussianReal 0 1).prod unit01) (harmTrial s w.beta t))
    {t : ℕ → ℕ} (ht : ∀ j, Site c j → t (c.atom j) = c.atomType j)
    {st : Conf → Sys} (hst : ∀ q, (∀ b ∈ w.atoms, q b ∈ cell w.gen) →
      (st q).pos = q ∧ (st q).typ = t ∧ At w lengths cutoff (st q).cells q)
    {p : Conf} (hp : ∀ b ∈ w.atoms, p b ∈ cell w.gen)
    {A B : Set Conf} (hA : MeasurableSet A) (hB : MeasurableSet B)
    (hAs : A ⊆ Short w c n e R) (hBs : B ⊆ Short w c n e R) :
    endFlow w c n m e R law st A B p = endFlow w c n m e R law st B A p := by
  refine end_balance ok hc hm hcap m hn hl (fun i hi => ?_) ht hst hp hA hB hAs hBs
  obtain ⟨h1, h2, h3⟩ := hs i hi
  obtain ⟨-, k, k0, k1, hk⟩ := C53_harmonic_law_partial s _ hbeta h1 h2 (hlaw _)
  refine ⟨k, k0, k1, ?_⟩
  have := hk R h3
  simp only [hE]
  exact this

/-- **C62 (harmonic bonds of zero rest length).** -/
theorem C62_harmonic0_partial (ok : w.OK lengths bravais cutoff) {c : Chain} {R : ℝ}
    (hc : c.OK w bravais R) (hm : Meas w c) (hcap : w.atoms.card < w.cellCap) {n : ℕ} (m : ℕ)
    (hn : (n : ℤ) < c.nAtom) {e : ℝ} (hl : Linear w c (regrown c n (signOf e))) (hbeta : 0 < w.beta)
    (s : Bond.Harm0) (hE : ∀ x t, c.bondE x t = s.energy x (t : ℤ))
    (hs : ∀ i ∈ regrown c n (signOf e), 0 < s.kappa (c.bondType (bondId (signOf e) i)))
    {law : ℕ → Measure ℝ} (hlaw : ∀ t : ℕ, IsLaw (law t) gauss3 (harm0Trial s w.beta t))
    {t : ℕ → ℕ} (ht : ∀ j, Site c j → t (c.atom j) = c.atomType j)
    {st : Conf → Sys} (hst : ∀ q, (∀ b ∈ w.atoms, q b ∈ cell w.gen) →
      (st q).pos = q ∧ (st q).typ = t ∧ At w lengths cutoff (st q).cells q)
    {p : Conf} (hp : ∀ b ∈ w.atoms, p b ∈ cell w.gen)
    {A B : Set Conf} (hA : MeasurableSet A) (hB : MeasurableSet B)
    (hAs : A ⊆ Short w c n e R) (hBs : B ⊆ Short w c n e R) :
    endFlow w c n m e R law st A B p = endFlow w c n m e R law st B A p := by
  refine end_balance ok hc hm hcap m hn hl (fun i hi => ?_) ht hst hp hA hB hAs hBs
  obtain ⟨-, k, k0, k1, hk⟩ := C53_harmonic0_law s _ hbeta (hs i hi) (hlaw _)
  refine ⟨k, k0, k1, ?_⟩
  have := hk R
  simp only [hE]
  exact this

/-- The hypotheses are met by a chain with stiff harmonic bonds. -/
example (A B : Set Conf) (hA : MeasurableSet A) (hB : MeasurableSet B) (m : ℕ) {e : ℝ} {s : Bond.Harm}
    (hs : s = ⟨fun _ => 100, fun _ => 1 / 10, 1⟩)
    (hAs : A ⊆ Short (demoWorld (s.energy · 0)) (demoChain (s.energy · 0)) 2 e (1 / 2))
    (hBs : B ⊆ Short (demoWorld (s.energy · 0)) (demoChain (s.energy · 0)) 2 e (1 / 2)) :
    ∃ (st : Conf → Sys) (law : ℕ → Measure ℝ),
    (∀ t : ℕ, IsLaw (law t) ((gaussianReal 0 1).prod unit01) (harmTrial s 1 t)) ∧
    endFlow (demoWorld (s.energy · 0)) (demoChain (s.energy · 0)) 2 m e (1 / 2) law st A B (fun _ _ => 1 / 2) =
    endFlow (demoWorld (s.energy · 0)) (demoChain (s.energy · 0)) 2 m e (1 / 2) law st B A
      (fun _ _ => 1 / 2) := by
  obtain ⟨st, hst⟩ := tri_state (pair := fun x _ _ => if x < 1 / 16 then 16 * x - 1 else 0)
    (bonded := demoTerms (s.energy · 0)) (links := [])
  have hex : ∀ t : ℕ, ∃ ρ, IsLaw ρ ((gaussianReal 0 1).prod unit01) (harmTrial s 1 t) := fun t =>
    law_exists fun _ hA => harm_hits_measurable hA
  choose law hlaw using hex
  have hE : ∀ x (t : ℤ), s.energy x 0 = s.energy x t := fun x t => by rw [hs]; rfl
  refine ⟨st, law, hlaw, C62_harmonic_partial (t := fun _ => 0) (demoWorld_ok _) triChain_ok
    (demoWorld_meas ?_) tri_card m ?_ (demo_linear _ _) one_pos s (fun x t => hE x t) (fun i _ => ?_) hlaw
    (fun _ _ => rfl) hst ?_ hA hB hAs hBs⟩
  · fun_prop
  · simp [triChain]
  · subst hs
    refine ⟨by norm_num, by norm_num, ?_⟩
    have : Real.sqrt ((1 : ℝ) * 100) = 10 := by
      rw [show ((1 : ℝ) * 100) = 10 ^ 2 by norm_num, Real.sqrt_sq (by norm_num)]
    change (1 / 2 : ℝ) ≤ 1 / 10 + 7 * (1 / Real.sqrt (1 * 100))
    rw [this]
    norm_num
  · intro b _
    exact demo_unit fun i => by norm_num

end Verif.Cfb
