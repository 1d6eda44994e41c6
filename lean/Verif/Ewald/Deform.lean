import Verif.Ewald.Stress

/-! # Ewald summation: energy of a strained box -/

set_option autoImplicit false

namespace Verif.Ewald

open Verif.Boundary Verif.Cpp Verif.Cpp.Out Filter Topology

/-- When `makeWaves` succeeds. -/
theorem makeWaves_ok_iff {b : Box} (hb : b.OK) (s : St) :
    (∃ t, s.makeWaves b = .ok t) ↔
      0 < s.kCut ∧ ∃ k : IVec, k ≠ 0 ∧ normSq (b.wave k) ≤ s.kCut * s.kCut := by
  rcases makeWaves_cases b s with ⟨t, h, hm, hp, hn⟩ | ⟨h, hc⟩
  · refine iff_of_true ⟨t, h⟩ ?_
    have h0 := (maxIndex_pos hb 0).1 (hp 0)
    refine ⟨h0, ?_⟩
    obtain ⟨w, hw⟩ := List.exists_mem_of_ne_nil _ hn
    rw [hm.waves, mem_waves hb h0.le] at hw
    exact ⟨w.k, (half_or _).2 (.inl hw.1), hw.2.1⟩
  · refine iff_of_false (by rintro ⟨t, ht⟩; rw [h] at ht; cases ht) ?_
    rintro ⟨h0, k, hk, hle⟩
    rcases hc with ⟨j, hj⟩ | hc
    · exact hj ((maxIndex_pos hb j).2 h0)
    · have key : ∀ k, Half k → normSq (b.wave k) ≤ s.kCut * s.kCut → False := by
        intro k h1 h2
        have := (mem_waves hb (i := s.inter) h0.le (w := b.record s.inter k)).2 ⟨h1, h2, rfl⟩
        rw [hc] at this
        cases this
      rcases (half_or k).1 hk with h1 | h1
      · exact key k h1 hle
      · exact key _ h1 (by rw [wave_neg, normSq_neg']; exact hle)

/-- A strain small enough moves no wavevector across the cutoff. -/
theorem Strained.stable {B : ℝ → Box} {e : Fin 3 → Fin 3 → ℝ} (h : Strained B e) {cut : ℝ}
    (hc : 0 ≤ cut) (hne : ∀ k : IVec, normSq ((B 0).wave k) ≠ cut * cut) :
    ∀ᶠ t in 𝓝 (0 : ℝ), ∀ k : IVec,
      normSq ((B t).wave k) ≤ cut * cut ↔ normSq ((B 0).wave k) ≤ cut * cut := by
  set M : Fin 3 → ℤ := fun j => ⌈cut * (Real.sqrt (normSq ((B 0).bravais j)) + 1) / (2 * Real.pi)⌉
  have hp := Real.pi_pos
  have hM : ∀ j, ∀ᶠ t in 𝓝 (0 : ℝ), maxIndex (B t) cut j ≤ M j := by
    intro j
    have hcont : ContinuousAt (fun t : ℝ => Real.sqrt (normSq (strain e t ((B 0).bravais j)))) 0 := by
      have : Continuous fun t : ℝ => Real.sqrt (normSq (strain e t ((B 0).bravais j))) := by
        unfold Verif.Boundary.normSq strain; fun_prop
      exact this.continuousAt
    have hlt : Real.sqrt (normSq (strain e 0 ((B 0).bravais j))) <
        Real.sqrt (normSq ((B 0).bravais j)) + 1 := by rw [strain_zero]; linarith
    filter_upwards [hcont.eventually_lt_const hlt, h.bravais] with t ht ha
    apply Int.ceil_le_ceil
    rw [ha j]
    exact div_le_div_of_nonneg_right (mul_le_mul_of_nonneg_left ht.le hc) (by positivity)
  set K : Set IVec := {k | ∀ j, |k j| ≤ M j} with hK
  have hfin : K.Finite := by
    refine (Set.Finite.pi' (fun j => Set.finite_Icc (-M j) (M j))).subset ?_
    intro k hk j
    exact abs_le.1 (hk j)
  have hk : ∀ᶠ t in 𝓝 (0 : ℝ), ∀ k ∈ K,
      (normSq ((B t).wave k) ≤ cut * cut ↔ normSq ((B 0).wave k) ≤ cut * cut) := by
    rw [eventually_all_finite hfin]
    intro k _
    have hcont := (h.waveSq k).continuousAt
    rcases lt_or_gt_of_ne (hne k) with hlt | hgt
    · filter_upwards [hcont.eventually_lt_const hlt] with t ht
      exact iff_of_true ht.le hlt.le
    · filter_upwards [hcont.eventually_const_lt hgt] with t ht
      exact iff_of_false (not_le.2 ht) (not_le.2 hgt)
  filter_upwards [hk, h.ok, eventually_all.2 hM] with t ht ok hMt k
  by_cases hkK : k ∈ K
  · exact ht k hkK
  · refine iff_of_false (fun hle => hkK fun j => (index_le ok hc hle j).trans (hMt j))
      (fun hle => hkK fun j => (index_le h.ok0 hc hle j).trans ?_)
    have := (eventually_all.2 hM).self_of_nhds j
    exact this

/-- Indices of waves as a list. -/
theorem waveSum_record (b : Box) (i : Inter) (l : List Wave) (hl : ∀ w ∈ l, w = b.record i w.k)
    (atoms : List Atom) : waveSum b l atoms = ((l.map Wave.k).map fun k =>
      i.kPot (normSq (b.wave k)) * Complex.normSq (factor atoms (b.wave k))).sum := by
  unfold waveSum
  rw [List.map_map]
  congr 1
  refine List.map_congr_left fun w hw => ?_
  have : w.g = i.kPot (normSq (b.wave w.k)) := congrArg Wave.g (hl w hw)
  simp only [Function.comp_apply]
  rw [this, mul_comm]

theorem keys_nodup {b : Box} (i : Inter) (c : ℝ) (m0 m1 m2 : ℤ) :
    ((allWaves b i c m0 m1 m2).map Wave.k).Nodup := by
  refine (allWaves_nodup b i c m0 m1 m2).map_on ?_
  intro x hx y hy e
  rw [(mem_allWaves.1 hx).2.2, (mem_allWaves.1 hy).2.2, e]

theorem keys_mem {b : Box} (hb : b.OK) (i : Inter) {cut : ℝ} (hc : 0 ≤ cut) (k : IVec) :
    k ∈ (allWaves b i (cut * cut) (maxIndex b cut 0) (maxIndex b cut 1) (maxIndex b cut 2)).map Wave.k ↔
      Half k ∧ normSq (b.wave k) ≤ cut * cut := by
  rw [List.mem_map]
  constructor
  · rintro ⟨w, hw, rfl⟩
    rw [mem_waves hb hc] at hw
    exact ⟨hw.1, hw.2.1⟩
  · rintro ⟨h1, h2⟩
    exact ⟨b.record i k, (mem_waves hb hc).2 ⟨h1, h2, rfl⟩, rfl⟩

/-- The k-space energy computed after the box changed and the waves were unset. -/
theorem computeEnergy_unset {b : Box} (hb : b.OK) {s t : St} (h : s.makeWaves b = .ok t)
    (hs : s.hasWaves = false) (atoms : List Atom) :
    s.computeEnergy b atoms = .ok { t with
      kSpaceEnergy := some (waveSum b t.waves atoms / b.volume - selfEnergy s.inter atoms) } := by
  have hm : Made b s t := by
    rcases makeWaves_cases b s with ⟨t', h', hm, -⟩ | ⟨h', -⟩
    · rw [h] at h'; cases h'; exact hm
    · rw [h] at h'; cases h'
  have h1 := computeEnergy_has hb hm.has atoms
  have e : s.computeEnergy b atoms = t.computeEnergy b atoms := by
    unfold St.computeEnergy
    have : s.charge b atoms = t.charge b atoms := by
      unfold St.charge
      rw [hs, hm.has, h]
      rfl
    rw [this]
  rw [e, h1, hm.inter]

/-- Energy of the strained box: derivative at zero strain. -/
theorem strain_energy {B : ℝ → Box} {e : Fin 3 → Fin 3 → ℝ} (h : Strained B e) {s t : St}
    (hi : s.inter.OK) (hs : s.hasWaves = false) (ht : s.makeWaves (B 0) = .ok t)
    (hne : ∀ k : IVec, normSq ((B 0).wave k) ≠ s.kCut * s.kCut) (atoms : List Atom) :
    ∃ E : ℝ → ℝ, (∀ᶠ x in 𝓝 (0 : ℝ), ∃ s',
        s.computeEnergy (B x) (atoms.map fun a => ⟨a.q, strain e x a.r⟩) = .ok s' ∧
        s'.kSpaceEnergy = some (E x)) ∧
      HasDerivAt E (-((B 0).volume * ∑ x, ∑ y, e x y * kStress (B 0) s.inter t.waves atoms x y)) 0 := by
  obtain ⟨h0, k, hk, hle⟩ := (makeWaves_ok_iff h.ok0 s).1 ⟨t, ht⟩
  have hm : Made (B 0) s t := by
    rcases makeWaves_cases (B 0) s with ⟨t', h', hm, -⟩ | ⟨h', -⟩
    · rw [ht] at h'; cases h'; exact hm
    · rw [ht] at h'; cases h'
  have hw : ∀ w ∈ t.waves, w = (B 0).record s.inter w.k ∧ w.ksq ≠ 0 := by
    intro w hwm
    rw [hm.waves, mem_waves h.ok0 h0.le] at hwm
    refine ⟨hwm.2.2, ?_⟩
    have hk0 := (half_or _).2 (.inl hwm.1)
    have e1 : w.ksq = normSq ((B 0).wave w.k) := congrArg Wave.ksq hwm.2.2
    rw [e1]
    intro hz
    apply hk0
    have hz' : ∀ j, dot ((B 0).wave w.k) ((B 0).bravais j) = 0 := by
      intro j
      have := dot_sq_le ((B 0).wave w.k) ((B 0).bravais j)
      rw [hz, zero_mul] at this
      nlinarith [sq_nonneg (dot ((B 0).wave w.k) ((B 0).bravais j))]
    have hp := Real.pi_pos
    funext j
    have := hz' j
    rw [dot_wave h.ok0] at this
    have h3 : (w.k j : ℝ) = 0 := by
      rcases mul_eq_zero.1 this with h4 | h4
      · exact absurd h4 (by positivity)
      · exact h4
    exact_mod_cast h3
  refine ⟨fun x => (t.waves.map fun w => s.inter.kPot (normSq ((B x).wave w.k)) *
      Complex.normSq (factor atoms ((B 0).wave w.k))).sum / (B x).volume - selfEnergy s.inter atoms,
    ?_, (hasDerivAt_strain h hi t.waves hw atoms).sub_const _⟩
  filter_upwards [h.ok, h.stable h0.le hne, factor_strain h atoms] with x ok hst hf
  obtain ⟨t', ht'⟩ := (makeWaves_ok_iff ok s).2 ⟨h0, k, hk, (hst k).2 hle⟩
  refine ⟨_, computeEnergy_unset ok ht' hs _, ?_⟩
  have hm' : Made (B x) s t' := by
    rcases makeWaves_cases (B x) s with ⟨t'', h', hm, -⟩ | ⟨h', -⟩
    · rw [ht'] at h'; cases h'; exact hm
    · rw [ht'] at h'; cases h'
  have hr : ∀ w ∈ t'.waves, w = (B x).record s.inter w.k := by
    intro w hwm; rw [hm'.waves, mem_waves ok h0.le] at hwm; exact hwm.2.2
  have hperm : (t'.waves.map Wave.k).Perm (t.waves.map Wave.k) := by
    rw [hm'.waves, hm.waves]
    refine (List.perm_ext_iff_of_nodup (keys_nodup _ _ _ _ _) (keys_nodup _ _ _ _ _)).2 ?_
    intro k
    rw [keys_mem ok _ h0.le, keys_mem h.ok0 _ h0.le, hst]
  have e1 : selfEnergy s.inter (atoms.map fun a => ⟨a.q, strain e x a.r⟩) = selfEnergy s.inter atoms := by
    unfold selfEnergy; rw [List.map_map]; rfl
  simp only
  rw [e1, waveSum_record _ s.inter _ hr]
  simp only [hf]
  rw [(hperm.map _).sum_eq, List.map_map]
  rfl

end Verif.Ewald
