import Verif.Pair.Tables
import Verif.Pair.Force
import Mathlib.Analysis.Calculus.Deriv.Inv
import Mathlib.Topology.Algebra.GroupWithZero
import Mathlib.Topology.Order.Lattice

/-! # Lennard-Jones and WCA interactions: theorems -/

set_option autoImplicit false

namespace Verif.Pair

open Verif.Boundary

/-! ## Specification -/

/-- Lennard-Jones energy at distance `r`. -/
noncomputable def ljU (eps sigma r : ℝ) : ℝ := 4 * eps * ((sigma / r) ^ 12 - (sigma / r) ^ 6)

/-- Lennard-Jones force at distance `r`, divided by `r`. -/
noncomputable def ljF (eps sigma r : ℝ) : ℝ := 24 * eps / r ^ 2 * (2 * (sigma / r) ^ 12 - (sigma / r) ^ 6)

/-! ## Tables -/

theorem shiftOf_eq (e s c : ℝ) : shiftOf e (s * s) (c * c) = - ljU e s c := by
  unfold shiftOf ljU
  simp only [div_pow]
  have h : s * s / (c * c) = (s / c) ^ 2 := by rw [div_pow]; ring
  rw [h, ← div_pow, ← div_pow]
  ring

/-- After any history, the force is the Lennard-Jones force of the current parameters, and the
force does not depend on the order of the types. -/
theorem C28_lj_force {s : LJ} (h : s.Used True) {i j : ℤ} (hij : In s.n i j) (r : ℝ) :
    s.forceOverR (r * r) i j = ljF (s.epsilon i j) (s.sigma i j) r ∧
    s.forceOverR (r * r) j i = s.forceOverR (r * r) i j := by
  have ok := h.ok
  constructor
  · unfold LJ.forceOverR ljF
    rw [ok.sq i j hij, ok.e48 i j hij]
    have h2 : s.sigma i j * s.sigma i j * (1 / (r * r)) = (s.sigma i j / r) ^ 2 := by
      rw [div_pow]; ring
    simp only [h2]
    ring
  · unfold LJ.forceOverR
    rw [ok.sigmaSq_symm hij.symm, ok.e48 i j hij, ok.e48 j i hij.symm, ok.symE j i hij.symm]

/-- If off-diagonal ranges are not modified and `set` is not used off the diagonal, the energy is
the shifted Lennard-Jones energy of the current parameters, and does not depend on the order of
the types. The restriction is needed: `C28_lj_setSigma_order`, `C28_lj_set_order`. -/
theorem C28_lj_energy_partial {s : LJ} (h : s.Used False) {i j : ℤ} (hij : In s.n i j) :
    (∀ r, 0.6 * s.sigma i j ^ 2 ≤ r ^ 2 → r ^ 2 < s.cutoff i j ^ 2 →
      s.energy (r * r) i j = ljU (s.epsilon i j) (s.sigma i j) r
        - ljU (s.epsilon i j) (s.sigma i j) (s.cutoff i j)) ∧
    (∀ r, s.cutoff i j ^ 2 ≤ r ^ 2 → s.energy (r * r) i j = 0) ∧
    ∀ rsq, s.energy rsq j i = s.energy rsq i j := by
  have ok := h.ok
  refine ⟨fun r h1 h2 => ?_, fun r h1 => ?_, fun rsq => ?_⟩
  · unfold LJ.energy
    rw [h.shift i j hij, ok.sq i j hij, ok.cutSq i j hij, shiftOf_eq]
    rw [if_pos (by nlinarith), if_neg (by nlinarith)]
    have h3 : s.sigma i j * s.sigma i j / (r * r) = (s.sigma i j / r) ^ 2 := by
      rw [div_pow]; ring
    simp only [h3]
    unfold ljU
    ring
  · unfold LJ.energy
    rw [ok.cutSq i j hij, if_neg (by nlinarith)]
  · unfold LJ.energy
    rw [h.shift i j hij, h.shift j i hij.symm, ok.sigmaSq_symm hij, ok.cutoffSq_symm hij,
      ok.symE i j hij]

/-- The maximum cutoff is the maximum, after any history. -/
theorem C28_lj_maxCutoff {s : LJ} (h : s.Used True) :
    (∀ i j, In s.n i j → s.cutoff i j ≤ s.maxCut) ∧
    (s.maxCut = 0 ∨ ∃ i j, In s.n i j ∧ s.maxCut = s.cutoff i j) := by
  refine ⟨h.ok.max, ?_⟩
  rw [h.ok.maxIs]
  rcases foldl_max_mem (pairsOf s.n) s.cutoff 0 with h1 | ⟨p, hp, h1⟩
  · exact .inl h1
  · exact .inr ⟨p.1, p.2, mem_pairsOf.1 hp, h1⟩

/-- The value set is returned by `get` for both orders of the types; other values are kept. -/
theorem C28_lj_get {s t : LJ} {i j k l : ℤ} {x : ℝ} (hs : s.n ≤ maxType) (hkl : In s.n k l)
    (hne : ¬ (k = i ∧ l = j) ∧ ¬ (k = j ∧ l = i)) :
    (s.setEpsilon i j x = .ok t → t.get "epsilon" i j = .ok x ∧ t.get "epsilon" j i = .ok x ∧
      t.get "epsilon" k l = s.get "epsilon" k l ∧
      (∀ a b, t.get "sigma" a b = s.get "sigma" a b) ∧ ∀ a b, t.get "cutoff" a b = s.get "cutoff" a b) ∧
    (s.setSigma i j x = .ok t → t.get "sigma" i j = .ok x ∧ t.get "sigma" j i = .ok x ∧
      t.get "sigma" k l = s.get "sigma" k l ∧
      (∀ a b, t.get "epsilon" a b = s.get "epsilon" a b) ∧
      ∀ a b, t.get "cutoff" a b = s.get "cutoff" a b) := by
  have hm : ∀ {a b : ℤ}, In s.n a b → In maxType a b := by unfold In; intros; omega
  constructor
  · intro h
    obtain ⟨hij, rfl⟩ := LJ.setEpsilon_eq h
    simp only [LJ.get, if_true, put_apply, hm hij, hm hij.symm, hm hkl, and_self, true_or, or_true]
    refine ⟨trivial, trivial, ?_, ?_, ?_⟩
    · rw [if_neg (by tauto)]
    · intro a b; simp
    · intro a b; simp
  · intro h
    obtain ⟨hij, rfl⟩ := LJ.setSigma_eq h
    simp only [LJ.get, if_true, put_apply, hm hij, hm hij.symm, hm hkl, and_self, true_or, or_true]
    refine ⟨by simp, by simp, ?_, ?_, ?_⟩
    · rw [if_neg (by decide), if_neg (by tauto), if_neg (by decide)]
    · intro a b; simp
    · intro a b; simp

/-! ## Forces -/

theorem hasDerivAt_lj (a e c s : ℝ) (hs : s ≠ 0) :
    HasDerivAt (fun t => 4 * e * (a / t * (a / t) * (a / t) * (a / t * (a / t) * (a / t)) -
        a / t * (a / t) * (a / t)) + c)
      (-(48 * e * (a * (1 / s) * (a * (1 / s)) * (a * (1 / s)) - 0.5) *
        (a * (1 / s) * (a * (1 / s)) * (a * (1 / s))) * (1 / s) / 2)) s := by
  have h1 : HasDerivAt (fun t => a / t) (-(a / (s * s))) s := by
    have := (hasDerivAt_inv hs).const_mul a
    refine (this.congr_of_eventuallyEq ?_).congr_deriv ?_
    · exact Filter.Eventually.of_forall fun t => by simp [div_eq_mul_inv]
    · field_simp
  have h3 : HasDerivAt (fun t => a / t * (a / t) * (a / t)) (3 * (a / s) ^ 2 * -(a / (s * s))) s := by
    refine ((h1.mul h1).mul h1).congr_deriv ?_
    simp only [Pi.mul_apply]
    ring
  refine ((((h3.mul h3).sub h3).const_mul (4 * e)).add_const c).congr_deriv ?_
  field_simp
  ring

/-- Inside of the cutoff and outside of the core, the force is minus the gradient of the energy,
after any history of parameter changes. -/
theorem C27_lj {s : LJ} (h : s.Used True) {i j : ℤ} (hij : In s.n i j) {rsq : ℝ} (h0 : 0 < rsq)
    (h1 : 0.6 * s.sigma i j ^ 2 < rsq) (h2 : rsq < s.cutoff i j ^ 2) :
    Conservative (fun q => s.energy q i j) (fun q => s.forceOverR q i j) rsq := by
  have ok := h.ok
  refine conservative_of ?_
  have e1 : s.sigmaSq i j = s.sigma i j ^ 2 := by rw [ok.sq i j hij]; ring
  have e2 : s.cutoffSq i j = s.cutoff i j ^ 2 := by rw [ok.cutSq i j hij]; ring
  have hev : (fun q => s.energy q i j) =ᶠ[nhds rsq] fun t => 4 * s.epsilon i j *
      (s.sigmaSq i j / t * (s.sigmaSq i j / t) * (s.sigmaSq i j / t) *
        (s.sigmaSq i j / t * (s.sigmaSq i j / t) * (s.sigmaSq i j / t)) -
        s.sigmaSq i j / t * (s.sigmaSq i j / t) * (s.sigmaSq i j / t)) + s.ljShift i j := by
    filter_upwards [Ioo_mem_nhds h1 h2] with t ht
    unfold LJ.energy
    rw [if_pos (by rw [e2]; exact ht.2), if_neg (by rw [e1]; exact not_lt.2 ht.1.le)]
  refine ((hasDerivAt_lj _ _ _ _ h0.ne').congr_of_eventuallyEq hev).congr_deriv ?_
  unfold LJ.forceOverR
  rw [ok.e48 i j hij]

/-- At and beyond the cutoff energy and force are zero; beyond it the force is the derivative. -/
theorem C27_lj_beyond {s : LJ} (h : s.Used True) {i j : ℤ} (hij : In s.n i j) {rsq : ℝ}
    (h1 : s.cutoff i j ^ 2 ≤ rsq) :
    s.energy rsq i j = 0 ∧ cutForce (s.cutoffSq i j) (fun q => s.forceOverR q i j) rsq = 0 ∧
    (s.cutoff i j ^ 2 < rsq → Conservative (fun q => s.energy q i j)
      (cutForce (s.cutoffSq i j) (fun q => s.forceOverR q i j)) rsq) := by
  have e2 : s.cutoffSq i j = s.cutoff i j ^ 2 := by rw [h.ok.cutSq i j hij]; ring
  have hz : ∀ q, s.cutoff i j ^ 2 ≤ q → s.energy q i j = 0 := by
    intro q hq; unfold LJ.energy; rw [if_neg (by rw [e2]; exact not_lt.2 hq)]
  have hf : cutForce (s.cutoffSq i j) (fun q => s.forceOverR q i j) rsq = 0 := by
    unfold cutForce; rw [if_neg (by rw [e2]; exact not_lt.2 h1)]
  refine ⟨hz _ h1, hf, fun h2 => conservative_of ?_⟩
  rw [hf]
  have hev : (fun q => s.energy q i j) =ᶠ[nhds rsq] fun _ => (0 : ℝ) := by
    filter_upwards [Ioi_mem_nhds h2] with t ht using hz t ht.le
  refine ((hasDerivAt_const rsq (0 : ℝ)).congr_of_eventuallyEq hev).congr_deriv ?_
  simp

/-- The energy is continuous, at the cutoff and at the core too. -/
theorem C27_lj_continuous {s : LJ} (h : s.Used False) {i j : ℤ} (hij : In s.n i j)
    (hs : 0 < s.sigma i j) (hc : 0.6 * s.sigma i j ^ 2 ≤ s.cutoff i j ^ 2) :
    Continuous fun q => s.energy q i j := by
  have ok := h.ok
  have e1 : s.sigmaSq i j = s.sigma i j ^ 2 := by rw [ok.sq i j hij]; ring
  have e2 : s.cutoffSq i j = s.cutoff i j ^ 2 := by rw [ok.cutSq i j hij]; ring
  have hm : 0 < 0.6 * s.sigma i j ^ 2 := by positivity
  set m := 0.6 * s.sigma i j ^ 2 with hmdef
  set c := s.cutoff i j ^ 2 with hcdef
  let g : ℝ → ℝ := fun t => s.sigmaSq i j / t
  let H : ℝ → ℝ := fun t => 4 * s.epsilon i j * (g t * g t * g t * (g t * g t * g t) - g t * g t * g t)
    + s.ljShift i j
  have hH : (fun q => s.energy q i j) = fun q => H (min c (max m q)) := by
    funext q
    unfold LJ.energy
    rw [e2, e1, ← hmdef]
    by_cases h1 : q < c
    · rw [if_pos h1, min_eq_right (max_le hc h1.le)]
      by_cases h2 : q < m
      · rw [if_pos h2, max_eq_left h2.le]
        simp only [H, g, e1]
      · rw [if_neg h2, max_eq_right (not_lt.1 h2)]
        simp only [H, g, e1]
    · rw [if_neg h1, min_eq_left (le_max_of_le_right (not_lt.1 h1))]
      simp only [H, g]
      rw [h.shift i j hij]
      unfold shiftOf
      simp only [e2]
      ring
  rw [hH]
  have hpos : ∀ q : ℝ, min c (max m q) ≠ 0 := fun q =>
    (lt_min (lt_of_lt_of_le hm hc) (lt_max_of_lt_left hm)).ne'
  have hg : Continuous fun q => g (min c (max m q)) :=
    continuous_const.div (continuous_const.min (continuous_const.max continuous_id)) hpos
  have hg3 := (hg.mul hg).mul hg
  exact (((hg3.mul hg3).sub hg3).const_mul _).add_const _

/-- Inside of the core the energy is constant but the force is not zero: there the force is not
the gradient of the energy. -/
theorem C27_lj_core_mismatch {s : LJ} (h : s.Used True) {i j : ℤ} (hij : In s.n i j) {rsq : ℝ}
    (he : 0 < s.epsilon i j) (hs : 0 < s.sigma i j) (h0 : 0 < rsq) (h1 : rsq < 0.6 * s.sigma i j ^ 2)
    (h2 : rsq < s.cutoff i j ^ 2) :
    0 < s.forceOverR rsq i j ∧
    ¬ Conservative (fun q => s.energy q i j) (fun q => s.forceOverR q i j) rsq := by
  have ok := h.ok
  have e1 : s.sigmaSq i j = s.sigma i j ^ 2 := by rw [ok.sq i j hij]; ring
  have e2 : s.cutoffSq i j = s.cutoff i j ^ 2 := by rw [ok.cutSq i j hij]; ring
  have hF : 0 < s.forceOverR rsq i j := by
    unfold LJ.forceOverR
    rw [ok.e48 i j hij, e1]
    have hx : 1 < s.sigma i j ^ 2 * (1 / rsq) := by
      rw [mul_one_div, lt_div_iff₀ h0]
      nlinarith [sq_nonneg (s.sigma i j)]
    set x := s.sigma i j ^ 2 * (1 / rsq)
    have hx2 : 1 < x * x := by nlinarith
    have hx3 : 1 < x * x * x := by nlinarith
    have : 0 < 1 / rsq := by positivity
    have h5 : (0 : ℝ) < x * x * x - 0.5 := by norm_num; linarith
    positivity
  refine ⟨hF, fun hc => ?_⟩
  have hr : 0 < Real.sqrt rsq := Real.sqrt_pos.2 h0
  have hrr : Real.sqrt rsq * Real.sqrt rsq = rsq := Real.mul_self_sqrt h0.le
  have hd := hc.radial (Real.sqrt rsq) hrr
  have hev : (fun r => s.energy (r * r) i j) =ᶠ[nhds (Real.sqrt rsq)] fun _ => s.energy rsq i j := by
    have hcont : Continuous fun r : ℝ => r * r := continuous_id.mul continuous_id
    have hmem : Set.Iio (min (0.6 * s.sigma i j ^ 2) (s.cutoff i j ^ 2)) ∈
        nhds (Real.sqrt rsq * Real.sqrt rsq) := by
      rw [hrr]; exact Iio_mem_nhds (lt_min h1 h2)
    filter_upwards [hcont.continuousAt.preimage_mem_nhds hmem] with r hr2
    have hr3 := lt_min_iff.1 (Set.mem_Iio.1 (Set.mem_preimage.1 hr2))
    unfold LJ.energy
    rw [e1, e2, if_pos hr3.2, if_pos hr3.1, if_pos h2, if_pos h1]
  have hd0 := (hasDerivAt_const (Real.sqrt rsq) (s.energy rsq i j)).congr_of_eventuallyEq hev
  have := hd.unique hd0
  rw [hrr] at this
  have : s.forceOverR rsq i j * Real.sqrt rsq = 0 := by linarith
  have := mul_pos hF hr
  linarith

end Verif.Pair
