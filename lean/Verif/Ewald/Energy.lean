import Verif.Ewald.Waves
import Mathlib.Analysis.SpecialFunctions.Complex.Log
import Mathlib.Algebra.BigOperators.Finprod

/-! # Ewald summation: charge density and energy -/

set_option autoImplicit false

namespace Verif.Ewald

open Verif.Boundary Verif.Cpp Verif.Cpp.Out

/-- Fourier mode of the charge density, `Σ q exp(i k·r)`. -/
noncomputable def factor (atoms : List Atom) (k : Vec) : ℂ :=
  (atoms.map fun a => (a.q : ℂ) * Complex.exp ((dot k a.r : ℝ) * Complex.I)).sum

theorem phase_eq {b : Box} (hb : b.OK) (r : Vec) (k : IVec) :
    (b.gen r 0 * (k 0 : ℝ) + b.gen r 1 * (k 1 : ℝ) + b.gen r 2 * (k 2 : ℝ)) * (2 * Real.pi) =
      dot (b.wave k) r := by
  have h0 := hb.gen r 0
  have h1 := hb.gen r 1
  have h2 := hb.gen r 2
  have e : dot (b.wave k) r = k 0 * dot (b.reciprocal 0) r +
      k 1 * dot (b.reciprocal 1) r + k 2 * dot (b.reciprocal 2) r := by
    simp only [Box.wave, latComb, dot, Pi.add_apply, Pi.smul_apply, smul_eq_mul]; ring
  rw [e, ← h0, ← h1, ← h2]; ring

theorem phasor_eq {b : Box} (hb : b.OK) (a : Atom) (w : Wave) :
    phasor b a w = (a.q : ℂ) * Complex.exp ((dot (b.wave w.k) a.r : ℝ) * Complex.I) := by
  unfold phasor
  simp only [phase_eq hb]
  apply Complex.ext
  · simp [Complex.exp_ofReal_mul_I_re]
  · simp [Complex.exp_ofReal_mul_I_im]

theorem zipWith_map_self {α β γ : Type} (l : List α) (f : α → β) (g : β → α → γ) :
    List.zipWith g (l.map f) l = l.map fun x => g (f x) x := by
  induction l with
  | nil => rfl
  | cons x l ih => simp [ih]

theorem charges_fold (b : Box) (waves : List Wave) (atoms : List Atom) (f : Wave → ℂ) :
    atoms.foldl (fun rho a => List.zipWith (fun z w => z + phasor b a w) rho waves) (waves.map f) =
      waves.map fun w => f w + (atoms.map fun a => phasor b a w).sum := by
  induction atoms generalizing f with
  | nil => simp
  | cons a l ih =>
    rw [List.foldl_cons, zipWith_map_self, ih]
    simp [add_assoc]

theorem charges_eq {b : Box} (hb : b.OK) (waves : List Wave) (atoms : List Atom) :
    charges b waves atoms = waves.map fun w => factor atoms (b.wave w.k) := by
  unfold charges
  rw [charges_fold]
  simp only [zero_add, phasor_eq hb]
  rfl

/-- `½ Σ q²` times twice the factor of the self-energy. -/
noncomputable def selfEnergy (i : Inter) (atoms : List Atom) : ℝ :=
  (atoms.map fun a => a.q * a.q).sum *
    (i.alpha / (4 * Real.sqrt Real.pi * Real.pi * i.epsilon))

/-- Sum over listed waves. -/
noncomputable def waveSum (b : Box) (waves : List Wave) (atoms : List Atom) : ℝ :=
  (waves.map fun w => Complex.normSq (factor atoms (b.wave w.k)) * w.g).sum

theorem foldl_add_map {α : Type} (f : α → ℝ) (l : List α) (x : ℝ) :
    l.foldl (fun e p => e + f p) x = x + (l.map f).sum := by
  induction l generalizing x with
  | nil => simp
  | cons a l ih => rw [List.foldl_cons, ih]; simp [add_assoc]

theorem zip_map_self {α β : Type} (l : List α) (f : α → β) :
    l.zip (l.map f) = l.map fun x => (x, f x) := by
  induction l with
  | nil => rfl
  | cons x l ih => simp [ih]

theorem charge_has {b : Box} (hb : b.OK) {s : St} (h : s.hasWaves = true) (atoms : List Atom) :
    s.charge b atoms = .ok (s, s.waves.map fun w => factor atoms (b.wave w.k)) := by
  unfold St.charge
  rw [if_pos h]
  show Out.ok (s, charges b s.waves atoms) = _
  rw [charges_eq hb]

theorem computeEnergy_has {b : Box} (hb : b.OK) {s : St} (h : s.hasWaves = true)
    (atoms : List Atom) : s.computeEnergy b atoms = .ok { s with
      kSpaceEnergy := some (waveSum b s.waves atoms / b.volume - selfEnergy s.inter atoms) } := by
  unfold St.computeEnergy
  rw [charge_has hb h, ok_bind]
  simp only [zip_map_self, foldl_add_map, List.foldl_map, zero_add, waveSum, selfEnergy,
    Complex.normSq_apply, List.map_map, Function.comp_def]

/-! ## Sum over all wavevectors -/

theorem wave_neg (b : Box) (k : IVec) : b.wave (-k) = -b.wave k := by
  unfold Box.wave latComb
  simp only [Pi.neg_apply, Int.cast_neg]
  module

theorem normSq_neg' (v : Vec) : normSq (-v) = normSq v := by
  simp [normSq]

theorem factor_neg (atoms : List Atom) (k : Vec) :
    factor atoms (-k) = (starRingEnd ℂ) (factor atoms k) := by
  unfold factor
  rw [map_list_sum, List.map_map]
  congr 1
  refine List.map_congr_left fun a _ => ?_
  simp only [Function.comp_apply, map_mul, Complex.conj_ofReal, ← Complex.exp_conj, Complex.conj_I]
  have : dot (-k) a.r = -dot k a.r := by simp [dot]; ring
  rw [this]; push_cast; ring_nf

theorem normSq_factor_neg (atoms : List Atom) (k : Vec) :
    Complex.normSq (factor atoms (-k)) = Complex.normSq (factor atoms k) := by
  rw [factor_neg, Complex.normSq_conj]

theorem half_or (k : IVec) : k ≠ 0 ↔ Half k ∨ Half (-k) := by
  unfold Half
  constructor
  · intro h
    by_contra hc
    apply h
    simp only [Pi.neg_apply] at hc
    have h0 : k 0 = 0 := by omega
    have h1 : k 1 = 0 := by omega
    have h2 : k 2 = 0 := by omega
    funext j; fin_cases j <;> assumption
  · rintro h rfl
    simp at h

theorem half_not (k : IVec) : Half k → ¬ Half (-k) := by
  unfold Half; simp only [Pi.neg_apply]; omega

/-- The term of the sum over all wavevectors. -/
noncomputable def term (b : Box) (i : Inter) (cut : ℝ) (atoms : List Atom) (k : IVec) : ℝ :=
  open Classical in
  if k ≠ 0 ∧ normSq (b.wave k) ≤ cut * cut then
    i.kPot (normSq (b.wave k)) * Complex.normSq (factor atoms (b.wave k))
  else 0

theorem term_neg (b : Box) (i : Inter) (cut : ℝ) (atoms : List Atom) (k : IVec) :
    term b i cut atoms (-k) = term b i cut atoms k := by
  unfold term
  rw [wave_neg, normSq_neg', normSq_factor_neg]
  simp only [ne_eq, neg_eq_zero]

/-- Membership in the list of waves, in a box with consistent basis vectors. -/
theorem mem_waves {b : Box} (hb : b.OK) {i : Inter} {cut : ℝ} (hc : 0 ≤ cut) {w : Wave} :
    w ∈ allWaves b i (cut * cut) (maxIndex b cut 0) (maxIndex b cut 1) (maxIndex b cut 2) ↔
      Half w.k ∧ normSq (b.wave w.k) ≤ cut * cut ∧ w = b.record i w.k := by
  rw [mem_allWaves]
  constructor
  · rintro ⟨h, h'⟩; exact ⟨h.1, h'⟩
  · rintro ⟨h, h1, h2⟩
    exact ⟨⟨h, (le_abs_self _).trans (index_le hb hc h1 0), index_le hb hc h1 1,
      index_le hb hc h1 2⟩, h1, h2⟩

theorem finsum_term {b : Box} (hb : b.OK) (i : Inter) {cut : ℝ} (hc : 0 ≤ cut) (atoms : List Atom) :
    ∑ᶠ k : IVec, term b i cut atoms k =
      2 * waveSum b (allWaves b i (cut * cut) (maxIndex b cut 0) (maxIndex b cut 1)
        (maxIndex b cut 2)) atoms := by
  classical
  have hnd := allWaves_nodup b i (cut * cut) (maxIndex b cut 0) (maxIndex b cut 1) (maxIndex b cut 2)
  have hm := fun w => mem_waves hb (i := i) hc (w := w)
  revert hnd hm
  generalize allWaves b i (cut * cut) (maxIndex b cut 0) (maxIndex b cut 1) (maxIndex b cut 2) = l
  intro hnd hm
  have hnk : (l.map Wave.k).Nodup := by
    refine hnd.map_on ?_
    intro x hx y hy e
    rw [((hm x).1 hx).2.2, ((hm y).1 hy).2.2, e]
  set F : Finset IVec := (l.map Wave.k).toFinset with hF
  have hmem : ∀ k, k ∈ F ↔ Half k ∧ normSq (b.wave k) ≤ cut * cut := by
    intro k
    rw [hF, List.mem_toFinset, List.mem_map]
    constructor
    · rintro ⟨w, hw, rfl⟩; exact ⟨((hm w).1 hw).1, ((hm w).1 hw).2.1⟩
    · rintro ⟨h1, h2⟩; exact ⟨b.record i k, (hm _).2 ⟨h1, h2, rfl⟩, rfl⟩
  have hdis : Disjoint F (F.image fun k => -k) := by
    rw [Finset.disjoint_left]
    intro k h1 h2
    obtain ⟨k', h3, rfl⟩ := Finset.mem_image.1 h2
    exact half_not _ ((hmem _).1 h3).1 ((hmem _).1 h1).1
  have hsub : Function.support (term b i cut atoms) ⊆ ↑(F ∪ F.image fun k => -k) := by
    intro k hk
    have h1 : k ≠ 0 ∧ normSq (b.wave k) ≤ cut * cut := by
      by_contra h
      exact hk (if_neg h)
    rw [Finset.mem_coe, Finset.mem_union, Finset.mem_image]
    rcases (half_or k).1 h1.1 with h | h
    · exact .inl ((hmem k).2 ⟨h, h1.2⟩)
    · refine .inr ⟨-k, (hmem _).2 ⟨h, ?_⟩, neg_neg k⟩
      rw [wave_neg, normSq_neg']; exact h1.2
  rw [finsum_eq_sum_of_support_subset _ hsub, Finset.sum_union hdis,
    Finset.sum_image (fun x _ y _ h => neg_injective h)]
  simp only [term_neg]
  rw [← two_mul]
  congr 1
  rw [hF, List.sum_toFinset _ hnk, List.map_map]
  unfold waveSum
  congr 1
  refine List.map_congr_left fun w hw => ?_
  obtain ⟨h1, h2, h3⟩ := (hm w).1 hw
  have e : w.g = i.kPot (normSq (b.wave w.k)) := congrArg Wave.g h3
  simp only [Function.comp_apply]
  unfold term
  rw [if_pos ⟨(half_or _).2 (.inl h1), h2⟩, e, mul_comm]

end Verif.Ewald
