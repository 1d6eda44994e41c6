import Verif.Ewald.Deform
import Verif.Pair.Dpd

/-!
# Ewald summation: properties (C72)

`Box.OK` holds for every box that an orthorhombic or monoclinic boundary can have
(`ofOrtho_ok`, `ofMono_ok`).
-/

set_option autoImplicit false

namespace Verif.Ewald

open Verif.Boundary Verif.Cpp Verif.Cpp.Out Filter Topology

theorem made_of_ok {b : Box} {s t : St} (h : s.makeWaves b = .ok t) : Made b s t := by
  rcases makeWaves_cases b s with ⟨t', h', hm, -⟩ | ⟨h', -⟩
  · rw [h] at h'; cases h'; exact hm
  · rw [h] at h'; cases h'

theorem zip_append_le {α β : Type} : ∀ (l c : List α) (f : List β), f.length ≤ l.length →
    (l ++ c).zip f = l.zip f
  | _, _, [], _ => by simp
  | [], _, _ :: _, h => by simp at h
  | _ :: l, c, _ :: f, h => by
    rw [List.cons_append, List.zip_cons_cons, List.zip_cons_cons, zip_append_le l c f (by simpa using h)]

/-- `makeWaves` never fails an assertion.  It succeeds exactly if the cutoff is positive and some
nonzero reciprocal lattice vector is within the cutoff.  Then it lists exactly one of each two
opposite reciprocal lattice vectors within the cutoff, once, with its square and the potential for
this square. -/
theorem C72_waves {b : Box} (hb : b.OK) (s : St) :
    s.makeWaves b ≠ .ub ∧
    ((∃ t, s.makeWaves b = .ok t) ↔
      0 < s.kCut ∧ ∃ k : IVec, k ≠ 0 ∧ normSq (b.wave k) ≤ s.kCut ^ 2) ∧
    ∀ t, s.makeWaves b = .ok t → (t.waves.map Wave.k).Nodup ∧
      (∀ w ∈ t.waves, w.ksq = normSq (b.wave w.k) ∧
        w.g = Real.exp (s.inter.cg * normSq (b.wave w.k)) / (normSq (b.wave w.k) * s.inter.epsilon)) ∧
      ∀ k : IVec, (¬ (k ∈ t.waves.map Wave.k ∧ -k ∈ t.waves.map Wave.k)) ∧
        ((k ∈ t.waves.map Wave.k ∨ -k ∈ t.waves.map Wave.k) ↔
          k ≠ 0 ∧ normSq (b.wave k) ≤ s.kCut ^ 2) := by
  refine ⟨?_, by rw [sq]; exact makeWaves_ok_iff hb s, ?_⟩
  · rcases makeWaves_cases b s with ⟨t, h, -⟩ | ⟨h, -⟩ <;> rw [h] <;> exact fun h => by cases h
  · intro t ht
    have hm := made_of_ok ht
    have h0 := ((makeWaves_ok_iff hb s).1 ⟨t, ht⟩).1
    rw [hm.waves]
    refine ⟨keys_nodup _ _ _ _ _, ?_, ?_⟩
    · intro w hw
      rw [mem_waves hb h0.le] at hw
      exact ⟨congrArg Wave.ksq hw.2.2, congrArg Wave.g hw.2.2⟩
    · intro k
      rw [keys_mem hb _ h0.le, keys_mem hb _ h0.le, sq, wave_neg, normSq_neg']
      refine ⟨fun h => half_not k h.1.1 h.2.1, ?_⟩
      rw [half_or]
      tauto

/-- The k-space energy, computed with waves made for the box, is half the sum over all nonzero
reciprocal lattice vectors within the cutoff of `|Σ q exp(i k·r)|² exp(-k²/4α²)/(ε k² V)`, minus the
self-energy `Σ q² α/(4 π^{3/2} ε)`. -/
theorem C72_energy {b : Box} (hb : b.OK) {s t : St} (hi : s.inter.OK) (h : s.makeWaves b = .ok t)
    (atoms : List Atom) :
    ∃ t', t.computeEnergy b atoms = .ok t' ∧ t'.kSpaceEnergy = some
      ((∑ᶠ k : IVec, open Classical in if k ≠ 0 ∧ normSq (b.wave k) ≤ s.kCut ^ 2 then
          Real.exp (-normSq (b.wave k) / (4 * s.inter.alpha ^ 2)) / (s.inter.epsilon * normSq (b.wave k)) *
            Complex.normSq (factor atoms (b.wave k)) else 0) / (2 * b.volume) -
        (atoms.map fun a => a.q ^ 2).sum *
          (s.inter.alpha / (4 * Real.pi * Real.sqrt Real.pi * s.inter.epsilon))) := by
  have hm := made_of_ok h
  have h0 := ((makeWaves_ok_iff hb s).1 ⟨t, h⟩).1
  refine ⟨_, computeEnergy_has hb hm.has atoms, ?_⟩
  have hf := finsum_term hb s.inter h0.le atoms
  rw [← hm.waves] at hf
  have e : (fun k : IVec => open Classical in if k ≠ 0 ∧ normSq (b.wave k) ≤ s.kCut ^ 2 then
          Real.exp (-normSq (b.wave k) / (4 * s.inter.alpha ^ 2)) / (s.inter.epsilon * normSq (b.wave k)) *
            Complex.normSq (factor atoms (b.wave k)) else 0) = term b s.inter s.kCut atoms := by
    funext k
    unfold term
    rw [sq]
    congr 2
    unfold Inter.kPot
    rw [hi.cg, mul_comm s.inter.epsilon]
    congr 2
    have := hi.alp.ne'
    field_simp
  rw [e, hf]
  simp only [selfEnergy, hm.inter, sq]
  congr 2
  · have := hb.vol.ne'
    field_simp
  · congr 1
    ring

/-- The waves and tables are such that `addForces` reads only existing elements, whatever the box. -/
theorem C72_force_safe {b b' : Box} (hb' : b'.OK) {s t : St} (h : s.makeWaves b = .ok t)
    (atoms : List Atom) (forces : List Vec) : ∃ fs, t.addForces b' atoms forces = .ok (t, fs) :=
  ⟨_, addForces_has hb' (made_of_ok h).has (made_of_ok h).idx atoms forces⟩

/-- `addForces` adds to the force on each atom minus the gradient of the k-space energy with
respect to the position of this atom, unless the charge of the atom is nonzero and at most
`10⁻¹⁰`. -/
theorem C72_force_partial {b b' : Box} (hb' : b'.OK) {s t : St} (h : s.makeWaves b = .ok t)
    (l l' : List Atom) (a : Atom) (ha : a.q = 0 ∨ |a.q| > 1 / 10 ^ 10) (fl : List Vec) (f : Vec)
    (fl' : List Vec) (hl : fl.length = l.length) :
    ∃ (gl : List Vec) (f' : Vec) (gl' : List Vec), gl.length = l.length ∧
      t.addForces b' (l ++ a :: l') (fl ++ f :: fl') = .ok (t, gl ++ f' :: gl') ∧
      ∀ v : Vec, ∃ E : ℝ → ℝ,
        (∀ x, ∃ t', t.computeEnergy b' (l ++ ⟨a.q, a.r + x • v⟩ :: l') = .ok t' ∧
          t'.kSpaceEnergy = some (E x)) ∧
        HasDerivAt E (-(dot (f' - f) v)) 0 := by
  have hm := made_of_ok h
  have e1 := addForces_has hb' hm.has hm.idx (l ++ a :: l') (fl ++ f :: fl')
  rw [List.zip_append hl.symm, List.zip_cons_cons, List.map_append, List.map_cons] at e1
  refine ⟨_, _, _, ?_, e1, fun v => ?_⟩
  · simp [hl]
  · refine ⟨fun x => waveSum b' t.waves (l ++ ⟨a.q, a.r + x • v⟩ :: l') / b'.volume -
      selfEnergy t.inter (l ++ ⟨a.q, a.r + x • v⟩ :: l'),
      fun x => ⟨_, computeEnergy_has hb' hm.has _, rfl⟩, ?_⟩
    refine (hasDerivAt_kEnergy b' t.inter t.waves l l' a.q a.r v).congr_deriv ?_
    simp only
    rcases ha with ha | ha
    · have hz : ¬ (|a.q| > 1 / 10 ^ 10) := by rw [ha]; norm_num
      rw [if_neg hz, sub_self]
      have : kForce b' t.waves (l ++ a :: l') a = 0 := by
        unfold kForce; simp [ha]
      change -(dot (kForce b' t.waves (l ++ a :: l') a) v) = _
      rw [this]
    · rw [if_pos ha, add_sub_cancel_left]

/-- The k-space forces add up to zero, if no charge is nonzero and at most `10⁻¹⁰`. -/
theorem C72_momentum_partial {b b' : Box} (hb' : b'.OK) {s t : St} (h : s.makeWaves b = .ok t)
    (atoms : List Atom) (ha : ∀ a ∈ atoms, a.q = 0 ∨ |a.q| > 1 / 10 ^ 10) (forces : List Vec)
    (hl : forces.length = atoms.length) :
    ∃ fs, t.addForces b' atoms forces = .ok (t, fs) ∧ fs.sum = forces.sum := by
  have hm := made_of_ok h
  refine ⟨_, addForces_has hb' hm.has hm.idx atoms forces, ?_⟩
  have key : ∀ (l : List Atom) (fs : List Vec), (∀ a ∈ l, a.q = 0 ∨ |a.q| > 1 / 10 ^ 10) →
      fs.length = l.length → ((l.zip fs).map fun p =>
        if |p.1.q| > 1 / 10 ^ 10 then p.2 + kForce b' t.waves atoms p.1 else p.2).sum =
        fs.sum + (l.map fun a => kForce b' t.waves atoms a).sum := by
    intro l
    induction l with
    | nil => intro fs _ hfs; simp only [List.length_nil, List.length_eq_zero_iff] at hfs; simp [hfs]
    | cons a l ih =>
      intro fs hq hfs
      cases fs with
      | nil => simp at hfs
      | cons f fs =>
        rw [List.zip_cons_cons, List.map_cons, List.sum_cons,
          ih fs (fun x hx => hq x (by simp [hx])) (by simpa using hfs), List.sum_cons, List.map_cons,
          List.sum_cons]
        rcases hq a (by simp) with h0 | h0
        · have hz : ¬ (|a.q| > 1 / 10 ^ 10) := by rw [h0]; norm_num
          have h1 : kForce b' t.waves atoms a = 0 := by unfold kForce; simp [h0]
          simp only
          rw [if_neg hz, h1]; abel
        · simp only
          rw [if_pos h0]; abel
  rw [key atoms forces ha hl, kForce_sum, add_zero]

/-- Moving one atom by a lattice vector changes neither the k-space energy nor any force. -/
theorem C72_periodic {b : Box} (hb : b.OK) {s t : St} (h : s.makeWaves b = .ok t)
    (l l' : List Atom) (a : Atom) (n : IVec) (forces : List Vec) :
    t.computeEnergy b (l ++ ⟨a.q, a.r + latComb b.bravais n⟩ :: l') = t.computeEnergy b (l ++ a :: l') ∧
    t.addForces b (l ++ ⟨a.q, a.r + latComb b.bravais n⟩ :: l') forces =
      t.addForces b (l ++ a :: l') forces := by
  have hm := made_of_ok h
  have hd : ∀ k : IVec, ∃ m : ℤ, dot (b.wave k) (a.r + latComb b.bravais n) =
      dot (b.wave k) a.r + m * (2 * Real.pi) := by
    intro k
    refine ⟨n 0 * k 0 + n 1 * k 1 + n 2 * k 2, ?_⟩
    have e : dot (b.wave k) (a.r + latComb b.bravais n) = dot (b.wave k) a.r +
        (n 0 * dot (b.wave k) (b.bravais 0) + n 1 * dot (b.wave k) (b.bravais 1) +
          n 2 * dot (b.wave k) (b.bravais 2)) := by
      simp only [latComb, dot, Pi.add_apply, Pi.smul_apply, smul_eq_mul]; ring
    rw [e, dot_wave hb, dot_wave hb, dot_wave hb]; push_cast; ring
  have hf : ∀ k : IVec, factor (l ++ ⟨a.q, a.r + latComb b.bravais n⟩ :: l') (b.wave k) =
      factor (l ++ a :: l') (b.wave k) := by
    intro k
    rw [factor_append, factor_append, factor_cons, factor_cons]
    obtain ⟨m, hm⟩ := hd k
    congr 3
    simp only
    rw [hm]
    have : (((dot (b.wave k) a.r + m * (2 * Real.pi) : ℝ)) : ℂ) * Complex.I =
        ((dot (b.wave k) a.r : ℝ) : ℂ) * Complex.I + m * (2 * Real.pi * Complex.I) := by push_cast; ring
    rw [this, Complex.exp_add, Complex.exp_int_mul_two_pi_mul_I, mul_one]
  constructor
  · rw [computeEnergy_has hb hm.has, computeEnergy_has hb hm.has]
    simp only [waveSum, hf]
    rw [show selfEnergy t.inter (l ++ ⟨a.q, a.r + latComb b.bravais n⟩ :: l') =
      selfEnergy t.inter (l ++ a :: l') from selfEnergy_move t.inter l l' a.q _ a.r]
  · rw [addForces_has hb hm.has hm.idx, addForces_has hb hm.has hm.idx]
    have hk : ∀ x : Atom, kForce b t.waves (l ++ ⟨a.q, a.r + latComb b.bravais n⟩ :: l') x =
        kForce b t.waves (l ++ a :: l') x := by
      intro x; simp only [kForce, amp, hf]
    have ha : kForce b t.waves (l ++ a :: l') ⟨a.q, a.r + latComb b.bravais n⟩ =
        kForce b t.waves (l ++ a :: l') a := by
      unfold kForce amp
      congr 1
      refine List.map_congr_left fun w _ => ?_
      obtain ⟨m, hm⟩ := hd w.k
      simp only
      rw [hm, Real.cos_add_int_mul_two_pi, Real.sin_add_int_mul_two_pi]
    congr 2
    simp only [hk]
    rcases Nat.le_total forces.length l.length with hlen | hlen
    · have : ∀ c : List Atom, (l ++ c).zip forces = l.zip forces := by
        exact fun c => zip_append_le l c forces hlen
      rw [this, this]
    · obtain ⟨f1, f2, rfl, hf1⟩ : ∃ f1 f2, forces = f1 ++ f2 ∧ f1.length = l.length :=
        ⟨forces.take l.length, forces.drop l.length, (List.take_append_drop _ _).symm, by simp [hlen]⟩
      rw [List.zip_append hf1.symm, List.zip_append hf1.symm]
      cases f2 with
      | nil => simp
      | cons f f2 =>
        rw [List.zip_cons_cons, List.zip_cons_cons, List.map_append, List.map_append, List.map_cons,
          List.map_cons]
        simp only [ha]

/-- Stress and energy.  Let the box be strained homogeneously, the atoms moving with it, and no
wavevector lie exactly on the cutoff.  The derivative of the k-space energy (with waves made anew)
with respect to strain `e` is minus volume times the contraction of `e` with the tensor computed by
`computeStress`. -/
theorem C72_stress {B : ℝ → Box} {e : Fin 3 → Fin 3 → ℝ} (h : Strained B e) {s : St}
    (hi : s.inter.OK) (hs : s.hasWaves = false) (h0 : 0 < s.kCut)
    (hk : ∃ k : IVec, k ≠ 0 ∧ normSq ((B 0).wave k) ≤ s.kCut ^ 2)
    (hne : ∀ k : IVec, normSq ((B 0).wave k) ≠ s.kCut ^ 2) (atoms : List Atom) :
    ∃ (E : ℝ → ℝ) (t : St) (P : Fin 3 → Fin 3 → ℝ),
      (∀ᶠ x in 𝓝 (0 : ℝ), ∃ s',
        s.computeEnergy (B x) (atoms.map fun a => ⟨a.q, strain e x a.r⟩) = .ok s' ∧
        s'.kSpaceEnergy = some (E x)) ∧
      s.computeStress (B 0) atoms = .ok t ∧ t.kSpaceStress = some P ∧
      HasDerivAt E (-((B 0).volume * ∑ i, ∑ j, e i j * P i j)) 0 := by
  obtain ⟨t, ht⟩ := (makeWaves_ok_iff h.ok0 s).2 ⟨h0, by rw [← sq]; exact hk⟩
  have hm := made_of_ok ht
  obtain ⟨E, h1, h2⟩ := strain_energy h hi hs ht (fun k => by rw [← sq]; exact hne k) atoms
  refine ⟨E, { t with kSpaceStress := some (kStress (B 0) s.inter t.waves atoms) },
    kStress (B 0) s.inter t.waves atoms, h1, ?_, rfl, h2⟩
  · have e1 : s.computeStress (B 0) atoms = t.computeStress (B 0) atoms := by
      unfold St.computeStress
      have : s.charge (B 0) atoms = t.charge (B 0) atoms := by
        unfold St.charge
        rw [hs, hm.has, ht]
        rfl
      rw [this]
    rw [e1, computeStress_has h.ok0 hm.has, hm.inter]

/-- The stress tensor is symmetric. -/
theorem C72_stress_symm {b : Box} (hb : b.OK) {s t : St} (h : s.makeWaves b = .ok t)
    (atoms : List Atom) : ∃ t' P, t.computeStress b atoms = .ok t' ∧ t'.kSpaceStress = some P ∧
      ∀ i j, P i j = P j i := by
  refine ⟨_, _, computeStress_has hb (made_of_ok h).has atoms, rfl, fun i j => ?_⟩
  unfold kStress
  congr 2
  refine List.map_congr_left fun w _ => ?_
  unfold waveStress delta
  simp only [eq_comm (a := i), mul_comm (_ : ℝ) (_ : ℝ)]

/-! ## r-space -/

/-- For each pair of atoms the force added is minus the gradient of the sum of the two energies
added, if this is true of the pair potential, except at the cutoffs. -/
theorem C72_pair {s : Inter} (h : s.OK) {pe pf : ℝ → ℝ} {pc qi qj rsq : ℝ} (h0 : 0 < rsq)
    (hp : rsq < pc → Pair.Conservative pe pf rsq) (h1 : rsq ≠ pc) (h2 : rsq ≠ s.rCutSq) :
    Pair.Conservative
      (fun x => (pairEnergies s pc pe qi qj x).1 + (pairEnergies s pc pe qi qj x).2)
      (pairForce s pc pf qi qj) rsq := by
  rcases lt_or_gt_of_ne h2 with hlt | hgt
  · have hr := conservative_rEnergy h (qi * qj) h0
    rcases lt_or_gt_of_ne h1 with hl1 | hg1
    · refine ((hp hl1).add hr).congr ?_ ?_
      · filter_upwards [gt_mem_nhds hlt, gt_mem_nhds hl1] with x hx1 hx2
        simp [pairEnergies, hx1, hx2]
      · simp [pairForce, hlt, hl1, add_comm]
    · refine hr.congr ?_ ?_
      · filter_upwards [gt_mem_nhds hlt, lt_mem_nhds hg1] with x hx1 hx2
        simp [pairEnergies, hx1, not_lt.2 hx2.le]
      · simp [pairForce, hlt, not_lt.2 (le_of_lt hg1)]
  · refine (Pair.Conservative.zero rsq).congr ?_ ?_
    · filter_upwards [lt_mem_nhds hgt] with x hx
      simp [pairEnergies, not_lt.2 hx.le]
    · simp [pairForce, not_lt.2 (le_of_lt hgt)]

/-- How r-space and k-space parts belong together.
(1) The r-space energy of a pair plus the product of the charges times the smooth potential is the
Coulomb energy.
(2) The smooth potential solves Poisson's equation for a charge smeared by a Gaussian.
(3) The potential used for wavevector `k` is the Fourier transform of this Gaussian divided by
`ε k²`.
(4) Half the smooth potential at the place of the charge itself is the factor of `q²` in the
self-energy. -/
theorem C72_split {s : Inter} (h : s.OK) :
    (∀ qq r : ℝ, 0 < r → s.rEnergy (r * r) qq + qq * smooth s r = qq / (4 * Real.pi * s.epsilon * r)) ∧
    (∀ r : ℝ, 0 < r → ∃ d : ℝ → ℝ, (∀ x, 0 < x → HasDerivAt (fun x => x * smooth s x) (d x) x) ∧
      HasDerivAt d (-(r * cloud s r / s.epsilon)) r) ∧
    (∀ k : Vec, normSq k ≠ 0 → (∫ r : Vec, (cloud s (Real.sqrt (normSq r)) : ℂ) *
      Complex.exp (-((dot k r : ℝ) * Complex.I))) / (s.epsilon * normSq k : ℝ) =
      (s.kPot (normSq k) : ℝ)) ∧
    ∀ q r : ℝ, ∀ p : Vec, r = selfEnergy s [⟨q, p⟩] →
      Tendsto (fun x => q ^ 2 / 2 * smooth s x) (𝓝[>] 0) (𝓝 r) := by
  refine ⟨fun qq r h0 => split h qq h0, fun r h0 => smooth_poisson h h0, fun k hk => kPot_fourier h k hk, ?_⟩
  rintro q r p rfl
  have := (smooth_zero h).const_mul (q ^ 2 / 2)
  have e : selfEnergy s [⟨q, p⟩] =
      q ^ 2 / 2 * (2 * s.alpha / Real.sqrt Real.pi / (4 * Real.pi * s.epsilon)) := by
    have := h.eps.ne'
    have := Real.pi_pos.ne'
    have := (Real.sqrt_pos.2 Real.pi_pos).ne'
    simp only [selfEnergy, List.map_cons, List.map_nil, List.sum_cons, List.sum_nil]
    field_simp
    try ring
  rw [e]
  exact this

/-- The energy of a pair of charges jumps at the cutoff. -/
theorem C72_continuous_violated {s : Inter} (h : s.OK) (hr : 0 < s.rCut) {qi qj : ℝ}
    (hq : qi * qj ≠ 0) : ¬ ContinuousAt (fun x => (pairEnergies s 0 (fun _ => 0) qi qj x).2) s.rCutSq := by
  have h0 : 0 < s.rCutSq := by rw [h.rCutSq]; positivity
  intro hc
  have h1 : Tendsto (fun x => (pairEnergies s 0 (fun _ => 0) qi qj x).2) (𝓝[<] s.rCutSq) (𝓝 0) := by
    have := hc.tendsto.mono_left (nhdsWithin_le_nhds (s := Set.Iio s.rCutSq))
    simpa [pairEnergies] using this
  have h2 : Tendsto (fun x => (pairEnergies s 0 (fun _ => 0) qi qj x).2) (𝓝[<] s.rCutSq)
      (𝓝 (s.rEnergy s.rCutSq (qi * qj))) := by
    have := (hasDerivAt_rEnergy h (qi * qj) h0).continuousAt.tendsto.mono_left
      (nhdsWithin_le_nhds (s := Set.Iio s.rCutSq))
    refine this.congr' ?_
    filter_upwards [self_mem_nhdsWithin] with x hx
    simp [pairEnergies, show x < s.rCutSq from hx]
  have h3 := tendsto_nhds_unique h1 h2
  have h4 := erfc_pos (s.alpha * Real.sqrt s.rCutSq)
  have h5 := Real.sqrt_pos.2 h0
  unfold Inter.rEnergy at h3
  simp only [h.ce] at h3
  have he := h.eps.ne'
  have hp := Real.pi_pos.ne'
  have : 1 / (4 * Real.pi * s.epsilon) * (qi * qj) * erfc (s.alpha * Real.sqrt s.rCutSq) /
      Real.sqrt s.rCutSq ≠ 0 := by
    refine div_ne_zero (mul_ne_zero (mul_ne_zero ?_ hq) h4.ne') h5.ne'
    positivity
  exact this h3.symm

/-! ## Parameters -/

/-- After `set` changed a parameter, the k-space energy is that of waves made for the new
parameters. -/
theorem C72_set {b : Box} (hb : b.OK) {s s1 t : St} {name : String} {x : ℝ} (h : s.set name x = .ok s1)
    (ht : s1.makeWaves b = .ok t) (atoms : List Atom) :
    ∃ t' t'' e, s1.getKSpaceEnergy b atoms = .ok (t', e) ∧ t.computeEnergy b atoms = .ok t'' ∧
      t''.kSpaceEnergy = some e := by
  have hu : s1.hasWaves = false ∧ s1.kSpaceEnergy = none := by
    unfold St.set at h
    split at h
    · cases h; exact ⟨rfl, rfl⟩
    · obtain ⟨i, -, h⟩ := bind_eq_ok.1 h
      cases h; exact ⟨rfl, rfl⟩
  have hm := made_of_ok ht
  have h1 := computeEnergy_unset hb ht hu.1 atoms
  refine ⟨{ t with kSpaceEnergy := some (waveSum b t.waves atoms / b.volume - selfEnergy t.inter atoms) },
    _, _, ?_, computeEnergy_has hb hm.has atoms, rfl⟩
  · unfold St.getKSpaceEnergy
    rw [hu.2]
    simp only [Option.isSome_none, Bool.false_eq_true, if_false]
    rw [h1, hm.inter]
    rfl

/-- Setting one parameter of the interaction has the same effect as reading the changed parameters. -/
theorem C72_set_read (e a r x : ℝ) :
    (Inter.read e a r).set "epsilon" x = .ok (Inter.read x a r) ∧
    (Inter.read e a r).set "alpha" x = .ok (Inter.read e x r) ∧
    (Inter.read e a r).set "rSpaceCutoff" x = .ok (Inter.read e a x) ∧
    ∀ name, name ∉ ["epsilon", "alpha", "rSpaceCutoff"] → (Inter.read e a r).set name x = .throw := by
  refine ⟨by simp [Inter.set, Inter.read, Inter.derive], by simp [Inter.set, Inter.read, Inter.derive],
    by simp [Inter.set, Inter.read, Inter.derive], fun name h => ?_⟩
  simp only [List.mem_cons, List.not_mem_nil, or_false, not_or] at h
  unfold Inter.set
  rw [if_neg h.1, if_neg h.2.1, if_neg h.2.2]

end Verif.Ewald
