import Verif.Spme.OnGrid
import Verif.Ewald.Deform

/-! # Smooth particle mesh Ewald summation: stress -/

set_option autoImplicit false

namespace Verif.Spme

open Verif.Boundary Verif.Cpp Verif.Cpp.Out Verif.Ewald ComplexConjugate Filter Topology

theorem computeStress_has {box : Box} {s : St} (hs : s.hasWaves = true) (hd : ∀ i, 4 ≤ s.dim i)
    {atoms : List Atom} (h : ∀ a ∈ atoms, Inside box a.r) :
    s.computeStress box atoms = .ok { s with
      kSpaceStress := some fun i j => (∑ k ∈ grid s.dim,
        waveStress (1 / 4 / (s.inter.alpha * s.inter.alpha)) s (density box s.dim atoms) k i j) /
        (2 * box.volume * box.volume) } := by
  obtain ⟨rho, h1, h2⟩ := assignCharges_has hs hd h
  unfold St.computeStress
  rw [h1, ok_bind]
  simp only [h2]

theorem makeWaves_first {box : Box} {s : St} (hs : s.hasWaves = false) (atoms : List Atom) :
    s.assignCharges box atoms = (s.makeWaves box).assignCharges box atoms := by
  unfold St.assignCharges
  simp [hs, St.makeWaves]

theorem hasDerivAt_influence {B : ℝ → Box} {e : Fin 3 → Fin 3 → ℝ} (h : Strained B e) {i : Inter} (hi : i.OK)
    {dim : Fin 3 → ℕ} {k : IVec} (hne : normSq (gridWave (B 0) dim k) ≠ 1 / 10 ^ 10) :
    HasDerivAt (fun t => influence (B t) i dim k) (if normSq (gridWave (B 0) dim k) > 1 / 10 ^ 10 then
      influence (B 0) i dim k * (1 / 4 / (i.alpha * i.alpha) + 1 / normSq (gridWave (B 0) dim k)) *
        (2 * quad e (gridWave (B 0) dim k)) else 0) 0 := by
  have hw := h.waveSq (sgn dim k)
  simp only [← gridWave_eq] at hw
  rcases lt_or_gt_of_ne hne with hlt | hgt
  · rw [if_neg (not_lt.2 hlt.le)]
    refine (hasDerivAt_const (0 : ℝ) (0 : ℝ)).congr_of_eventuallyEq ?_
    filter_upwards [hw.continuousAt.eventually_lt_const hlt] with t ht
    unfold influence
    exact if_neg (not_lt.2 ht.le)
  · rw [if_pos hgt]
    have h0 : normSq (gridWave (B 0) dim k) ≠ 0 := by
      intro h0; rw [h0] at hgt; norm_num at hgt
    have h1 := HasDerivAt.comp (h₂ := i.kPot) (h := fun t => normSq (gridWave (B t) dim k)) 0
      (hasDerivAt_kPot hi h0) hw
    have h2 := h1.const_mul (bfactor (dim 0) (k 0) * bfactor (dim 1) (k 1) * bfactor (dim 2) (k 2))
    have h3 : (fun t => influence (B t) i dim k) =ᶠ[𝓝 0] fun t =>
        bfactor (dim 0) (k 0) * bfactor (dim 1) (k 1) * bfactor (dim 2) (k 2) *
          (i.kPot ∘ fun t => normSq (gridWave (B t) dim k)) t := by
      filter_upwards [hw.continuousAt.eventually_const_lt hgt] with t ht
      unfold influence
      exact if_pos ht
    refine (h2.congr_of_eventuallyEq h3).congr_deriv ?_
    have h5 := h3.self_of_nhds
    simp only [Function.comp_apply] at h5
    rw [h5]
    ring

/-- Rate of change of the energy when the box is strained. -/
theorem strain_energy {B : ℝ → Box} {e : Fin 3 → Fin 3 → ℝ} (h : Strained B e) {s : St} (hi : s.inter.OK)
    (hne : ∀ k ∈ grid s.dim, normSq (gridWave (B 0) s.dim k) ≠ 1 / 10 ^ 10) (D : IVec → ℂ) :
    HasDerivAt (fun t => (∑ k ∈ grid s.dim, influence (B t) s.inter s.dim k * Complex.normSq (D k)) /
      (2 * (B t).volume))
      (-((B 0).volume * ∑ x, ∑ y, e x y * ((∑ k ∈ grid s.dim,
        waveStress (1 / 4 / (s.inter.alpha * s.inter.alpha)) (s.makeWaves (B 0)) D k x y) /
        (2 * (B 0).volume * (B 0).volume)))) 0 := by
  have hv := h.ok0.vol.ne'
  have h1 := HasDerivAt.fun_sum (u := grid s.dim) fun k hk =>
    (hasDerivAt_influence h hi (dim := s.dim) (hne k hk)).mul_const (Complex.normSq (D k))
  have h2 := h1.div (h.volume.const_mul 2) (mul_ne_zero two_ne_zero hv)
  refine h2.congr_deriv ?_
  set ca := 1 / 4 / (s.inter.alpha * s.inter.alpha)
  have h3 : ∀ k ∈ grid s.dim, ∑ x, ∑ y, e x y * waveStress ca (s.makeWaves (B 0)) D k x y =
      (e 0 0 + e 1 1 + e 2 2) * (influence (B 0) s.inter s.dim k * Complex.normSq (D k)) -
        (if normSq (gridWave (B 0) s.dim k) > 1 / 10 ^ 10 then
          influence (B 0) s.inter s.dim k * (ca + 1 / normSq (gridWave (B 0) s.dim k)) *
            (2 * quad e (gridWave (B 0) s.dim k)) else 0) * Complex.normSq (D k) := by
    intro k _
    unfold waveStress
    change (∑ x, ∑ y, e x y * (if normSq (gridWave (B 0) s.dim k) > 1 / 10 ^ 10 then
      (delta x y + gridWave (B 0) s.dim k x * gridWave (B 0) s.dim k y *
        (-2 * (ca + 1 / normSq (gridWave (B 0) s.dim k)))) *
      (influence (B 0) s.inter s.dim k * Complex.normSq (D k)) else 0)) = _
    by_cases hq : normSq (gridWave (B 0) s.dim k) > 1 / 10 ^ 10
    · simp only [if_pos hq]
      simp only [quad, Fin.sum_univ_three, delta]
      simp
      ring
    · have : influence (B 0) s.inter s.dim k = 0 := by unfold influence; exact if_neg hq
      simp only [if_neg hq, this]
      simp
  have h4 : ∑ x, ∑ y, e x y * ((∑ k ∈ grid s.dim, waveStress ca (s.makeWaves (B 0)) D k x y) /
        (2 * (B 0).volume * (B 0).volume)) =
      (∑ k ∈ grid s.dim, ∑ x, ∑ y, e x y * waveStress ca (s.makeWaves (B 0)) D k x y) /
        (2 * (B 0).volume * (B 0).volume) := by
    simp only [Fin.sum_univ_three, Finset.sum_add_distrib, ← Finset.mul_sum]
    ring
  rw [h4, Finset.sum_congr rfl h3, Finset.sum_sub_distrib, ← Finset.mul_sum]
  generalize (∑ k ∈ grid s.dim, influence (B 0) s.inter s.dim k * Complex.normSq (D k)) = X
  generalize (∑ k ∈ grid s.dim, (if normSq (gridWave (B 0) s.dim k) > 1 / 10 ^ 10 then
          influence (B 0) s.inter s.dim k * (ca + 1 / normSq (gridWave (B 0) s.dim k)) *
            (2 * quad e (gridWave (B 0) s.dim k)) else 0) * Complex.normSq (D k)) = Y
  field_simp
  ring

end Verif.Spme
