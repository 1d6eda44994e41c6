/-
C60: forces of external fields are minus the gradients of their energies, and the
fields have the periodicity of the cell.
-/
import Verif.External.Lemmas
import Mathlib.Tactic.NormNum

set_option autoImplicit false

namespace Verif.External

open Verif.Boundary Verif.Cpp Verif.Cpp.Out

/-! ### Walls -/

/-- **C60** (walls, partial): the force of a slit, box or box with some confining
directions is minus the gradient of the energy wherever the energy is smooth and not
capped. Missing: the cap, where it is false, see `C60_walls_cap_violated`. -/
theorem C60_walls_partial (s : Wall) (hs : 0 < s.sigmaCb) (L r : Vec) :
    (s.Smooth (L 2) (r 2) → IsForce (slitEnergy s L) (slitForce s L r) r) ∧
    ((∀ i, s.Smooth (L i) (r i)) → IsForce (boxEnergy s L) (boxForce s L r) r) ∧
    ∀ first : ℕ, (∀ i : Fin 3, first ≤ (i : ℕ) → s.Smooth (L i) (r i)) →
      IsForce (orthoBoxEnergy s first L) (orthoBoxForce s first L r) r := by
  refine ⟨fun h => ?_, fun h => ?_, fun first h => ?_⟩
  · have key : IsForce (fun x => ∑ i : Fin 3, (fun (j : Fin 3) (y : ℝ) =>
        if j = 2 then s.energyAt (L 2) y else 0) i (x i)) (slitForce s L r) r := by
      refine isForce_sum (g := fun (j : Fin 3) (y : ℝ) =>
        if j = 2 then s.energyAt (L 2) y else 0) fun i => ?_
      by_cases hi : i = 2
      · subst hi
        simp only [if_true]
        exact Wall.energyAt_deriv hs h
      · simp only [if_neg hi]
        have : slitForce s L r i = 0 := by
          unfold slitForce
          fin_cases i <;> simp at hi ⊢
        rw [this, neg_zero]
        exact hasDerivAt_const _ _
    refine key.congr (Filter.Eventually.of_forall fun x => ?_)
    simp [slitEnergy]
  · exact isForce_sum (g := fun i => s.energyAt (L i)) fun i => Wall.energyAt_deriv hs (h i)
  · refine isForce_sum (g := fun i x => if first ≤ (i : ℕ) then s.energyAt (L i) x else 0) fun i => ?_
    unfold orthoBoxForce
    by_cases hi : first ≤ (i : ℕ)
    · simp only [if_pos hi]
      exact Wall.energyAt_deriv hs (h i hi)
    · simp only [if_neg hi, neg_zero]
      exact hasDerivAt_const _ _

/-- Near a wall the energy of a slit is capped and thus constant, but the force is
not zero: there the force is never minus the gradient. Beyond the wall the force
points away from the slit. -/
theorem C60_walls_cap_violated (s : Wall) (hs : 0 < s.sigmaCb) (hc : 0 < s.coeff) (L r : Vec)
    (h1 : wallDist (L 2) (r 2) < s.cutoff) (h2 : wallDist (L 2) (r 2) ^ 3 < 0.129615 * s.sigmaCb) :
    (wallDist (L 2) (r 2) ≠ 0 → ¬ IsForce (slitEnergy s L) (slitForce s L r) r) ∧
    (0 < L 2 → r 2 < 0 → slitForce s L r 2 < 0) ∧
    (0 < L 2 → L 2 < r 2 → 0 < slitForce s L r 2) := by
  obtain ⟨c, hcp, hf⟩ := Wall.force1_cap hs h1 (by rw [pow_three'] at h2; exact h2)
  have e2 : slitForce s L r 2 = s.forceAt (L 2) (r 2) := rfl
  have hcc : 0 < c * s.coeff := mul_pos hcp hc
  refine ⟨fun h0 h => ?_, fun hL hr => ?_, fun hL hr => ?_⟩
  · have h3 : IsForce (slitEnergy s L) (fun _ => 0) r := by
      have key : IsForce (fun x => ∑ i : Fin 3, (fun (j : Fin 3) (y : ℝ) =>
          if j = 2 then s.energyAt (L 2) y else 0) i (x i)) (fun _ => 0) r := by
        refine isForce_sum (g := fun (j : Fin 3) (y : ℝ) =>
          if j = 2 then s.energyAt (L 2) y else 0) fun i => ?_
        by_cases hi : i = 2
        · subst hi
          simp only [if_true, neg_zero]
          exact Wall.energyAt_cap h1 h2
        · simp only [if_neg hi, neg_zero]
          exact hasDerivAt_const _ _
      refine key.congr (Filter.Eventually.of_forall fun x => ?_)
      simp [slitEnergy]
    have h4 := congrFun (h.unique h3) 2
    rw [e2, Wall.forceAt_eq, hf] at h4
    have h5 : c * s.coeff / wallDist (L 2) (r 2) ≠ 0 := div_ne_zero hcc.ne' h0
    split at h4
    · apply h5
      linarith
    · apply h5
      linarith
  · have hd : wallDist (L 2) (r 2) = r 2 := min_eq_left (by linarith)
    rw [e2, Wall.forceAt_eq, hf, if_neg (by linarith), hd, one_mul]
    exact div_neg_of_pos_of_neg hcc hr
  · have hd : wallDist (L 2) (r 2) = L 2 - r 2 := min_eq_right (by linarith)
    rw [e2, Wall.forceAt_eq, hf, if_pos (by linarith), hd]
    have := div_neg_of_pos_of_neg hcc (show L 2 - r 2 < 0 by linarith)
    linarith

/-- The derived values agree with the parameters. -/
def Wall.Fresh (s : Wall) : Prop :=
  s.sigmaCb = s.sigma ^ 3 ∧ s.coeff = 4 * s.epsilon * Real.pi / 45 * (7 / 10) * s.sigma ^ 3

theorem wallCoeff_eq (e c : ℝ) : wallCoeff e c = 4 * e * Real.pi / 45 * (7 / 10) * c := by
  unfold wallCoeff
  rw [lit1, Real.arccos_neg_one]
  norm_num

/-- **C60** (walls, partial): after `readParameters` and any number of calls of
`SlitExternal::set` the derived values agree with the parameters. Missing: the same for
`setExternalParameter` and for `set` of the other two classes, where it is false, see
`C60_walls_set_violated`. -/
theorem C60_walls_set_partial (epsilon sigma cutoff : ℝ) (l : List (String × ℝ)) (s : Wall)
    (h : loop (fun (s : Wall) (c : String × ℝ) => s.slitSet c.1 c.2) l
      (Wall.read epsilon sigma cutoff) = ok s) : s.Fresh := by
  have h0 : (Wall.read epsilon sigma cutoff).Fresh := by
    refine ⟨?_, ?_⟩
    · show sigma * sigma * sigma = sigma ^ 3
      ring
    · show wallCoeff epsilon (sigma * sigma * sigma) = _
      rw [wallCoeff_eq]
      show _ = 4 * epsilon * Real.pi / 45 * (7 / 10) * sigma ^ 3
      ring
  generalize Wall.read epsilon sigma cutoff = t at h h0
  induction l generalizing t with
  | nil =>
    rw [loop_nil] at h
    injection h with h
    rw [← h]
    exact h0
  | cons c l ih =>
    rw [loop_cons, bind_eq_ok] at h
    obtain ⟨t', h1, h2⟩ := h
    refine ih t' h2 ?_
    unfold Wall.slitSet at h1
    rw [bind_eq_ok] at h1
    obtain ⟨u, -, h1⟩ := h1
    injection h1 with h1
    rw [← h1]
    refine ⟨?_, ?_⟩
    · show u.sigma * u.sigma * u.sigma = u.sigma ^ 3
      ring
    · show wallCoeff u.epsilon (u.sigma * u.sigma * u.sigma) = _
      rw [wallCoeff_eq]
      show _ = 4 * u.epsilon * Real.pi / 45 * (7 / 10) * u.sigma ^ 3
      ring

/-- `setExternalParameter` of the walls, and `set` of the two kinds of boxes, change the
value returned by `externalParameter` and `get` but not the energy of any position. -/
theorem C60_walls_set_violated (s : Wall) (hi : s.initialized = true) (x : ℝ) :
    (∃ t, s.setExternalParameter x = ok t ∧ t.externalParameter = x ∧
      (∀ L r, slitEnergy t L r = slitEnergy s L r) ∧ (∀ L r, boxEnergy t L r = boxEnergy s L r) ∧
      (∀ k L r, orthoBoxEnergy t k L r = orthoBoxEnergy s k L r)) ∧
    (∃ t, s.set "epsilon" x = ok t ∧ t.get "epsilon" = ok x ∧
      ∀ L r, boxEnergy t L r = boxEnergy s L r) ∧
    ∃ t, s.set "sigma" x = ok t ∧ t.get "sigma" = ok x ∧
      ∀ L r, boxEnergy t L r = boxEnergy s L r := by
  refine ⟨⟨{ s with epsilon := x }, ?_, rfl, fun _ _ => rfl, fun _ _ => rfl, fun _ _ _ => rfl⟩,
    ⟨{ s with epsilon := x }, rfl, rfl, fun _ _ => rfl⟩,
    ⟨{ s with sigma := x }, ?_, ?_, fun _ _ => rfl⟩⟩
  · unfold Wall.setExternalParameter
    rw [check_true hi, ok_bind]
  · unfold Wall.set
    rw [if_neg (by decide), if_pos rfl]
  · unfold Wall.get
    rw [if_neg (by decide), if_pos rfl]

/-! ### Periodic fields -/

/-- **C60**: the force of the lamellar field is minus the gradient of the energy at every
position, and energy and force have the periodicity of the cell. -/
theorem C60_lamellar (s : Lamellar) (L r : Vec) (type : ℤ) :
    IsForce (fun x => s.energy L x type) (s.force L r type) r ∧
    ((∀ i, L i ≠ 0) → ∀ n : IVec,
      s.energy L (fun i => r i + n i * L i) type = s.energy L r type ∧
      s.force L (fun i => r i + n i * L i) type = s.force L r type) := by
  have hq : ∀ (hL : ∀ i, L i ≠ 0) (n : IVec),
      2.0 * Real.pi * s.periodicity / L s.perpDirection *
        (r s.perpDirection + n s.perpDirection * L s.perpDirection) =
      2.0 * Real.pi * s.periodicity / L s.perpDirection * r s.perpDirection +
        ((s.periodicity * n s.perpDirection : ℤ) : ℝ) * (2 * Real.pi) := by
    intro hL n
    have := hL s.perpDirection
    have e : (2.0 : ℝ) = 2 := by norm_num
    rw [e]
    push_cast
    field_simp
  refine ⟨?_, fun hL n => ⟨?_, ?_⟩⟩
  · obtain ⟨q, hqd⟩ : ∃ q, q = 2.0 * Real.pi * s.periodicity / L s.perpDirection := ⟨_, rfl⟩
    obtain ⟨c, hcd⟩ : ∃ c, c = 1.0 / (q * s.interfaceWidth * L s.perpDirection) := ⟨_, rfl⟩
    have h1 : HasDerivAt (fun y : ℝ => s.prefactor type * s.externalParameter *
        Real.tanh (c * Real.cos (q * y))) (-(s.forceScalar L (r s.perpDirection) type))
        (r s.perpDirection) := by
      have h2 : HasDerivAt (fun y : ℝ => q * y) q (r s.perpDirection) := by
        simpa using (hasDerivAt_id (r s.perpDirection)).const_mul q
      have h3 : HasDerivAt (fun y : ℝ => c * Real.cos (q * y))
          (c * (-Real.sin (q * r s.perpDirection) * q)) (r s.perpDirection) :=
        ((Real.hasDerivAt_cos _).comp _ h2).const_mul c
      have h4 := (HasDerivAt.comp (r s.perpDirection)
        (hasDerivAt_tanh (c * Real.cos (q * r s.perpDirection))) h3).const_mul
        (s.prefactor type * s.externalParameter)
      refine h4.congr_deriv ?_
      unfold Lamellar.forceScalar
      simp only [← hqd, ← hcd]
      rw [lit1]
      ring
    have h5 := h1.comp_hasFDerivAt r (hasFDerivAt_coord s.perpDirection r)
    have e : (fun x => s.energy L x type) = (fun y : ℝ => s.prefactor type * s.externalParameter *
        Real.tanh (c * Real.cos (q * y))) ∘ fun x : Vec => x s.perpDirection := by
      funext x
      unfold Lamellar.energy
      simp only [← hqd, ← hcd, Function.comp]
    rw [e]
    refine isForce_of_hasFDerivAt h5 fun v => ?_
    rw [_root_.smul_apply, ContinuousLinearMap.proj_apply, smul_eq_mul]
    unfold Lamellar.force setc
    generalize s.perpDirection = k
    generalize s.forceScalar L (r k) type = a
    fin_cases k <;> simp
  · unfold Lamellar.energy
    dsimp only
    rw [hq hL n, Real.cos_add_int_mul_two_pi]
  · unfold Lamellar.force Lamellar.forceScalar
    dsimp only
    rw [hq hL n, Real.cos_add_int_mul_two_pi, Real.sin_add_int_mul_two_pi]

/-- **C60**: the force of the simple periodic field is minus the gradient of the energy at
every position; for lattice translations of an orthorhombic cell energy and force do not
change. -/
theorem C60_simple (s : Simple) (L r : Vec) (type : ℤ) :
    IsForce (fun x => s.energy L x type) (s.force L r type) r ∧
    ((∀ i, L i ≠ 0) → ∀ n : IVec,
      s.energy L (fun i => r i + n i * L i) type = s.energy L r type ∧
      s.force L (fun i => r i + n i * L i) type = s.force L r type) := by
  refine ⟨?_, fun hL n => ?_⟩
  · simp only [s.energy_eq, s.force_eq]
    exact isForce_wave _ _ _ _ _
  · have h := cosSum_periodic (ws := s.terms L) (u := fun i => n i * L i) (fun w hw => by
      unfold Simple.terms at hw
      obtain ⟨v, -, rfl⟩ := List.mem_map.1 hw
      exact waveQ_lattice hL (fun i => ⟨s.periodicity * v i, by push_cast; rfl⟩) n) r
    simp only [s.energy_eq, s.force_eq]
    rw [h.1, h.2]
    exact ⟨rfl, rfl⟩

/-- **C60** (partial): the force of the periodic field is minus the gradient of the energy
at every position; energy and force have the periodicity of the cell if the wave vectors,
times the number of periods, are integers. Missing: other wave vectors, which are accepted
and for which the field is not periodic, see `C60_periodic_violated`. -/
theorem C60_periodic_partial (s : Periodic) (L r : Vec) (type : ℤ) :
    IsForce (fun x => s.energy L x type) (s.force L r type) r ∧
    ((∀ i, L i ≠ 0) → (∀ w ∈ s.waves, ∀ i, ∃ m : ℤ, s.periodicity * w.1 i = m) → ∀ n : IVec,
      s.energy L (fun i => r i + n i * L i) type = s.energy L r type ∧
      s.force L (fun i => r i + n i * L i) type = s.force L r type) := by
  refine ⟨?_, fun hL hw n => ?_⟩
  · simp only [s.energy_eq, s.force_eq]
    exact isForce_wave _ _ _ _ _
  · have h := cosSum_periodic (ws := s.terms L) (u := fun i => n i * L i) (fun w hw' => by
      unfold Periodic.terms at hw'
      obtain ⟨v, hv, rfl⟩ := List.mem_map.1 hw'
      exact waveQ_lattice hL (hw v hv) n) r
    simp only [s.energy_eq, s.force_eq]
    rw [h.1, h.2]
    exact ⟨rfl, rfl⟩

/-- **C60** (partial): the same for the general periodic field. -/
theorem C60_general_partial (s : General) (L r : Vec) (type : ℤ) :
    IsForce (fun x => s.energy L x type) (s.force L r type) r ∧
    ((∀ i, L i ≠ 0) → (∀ w ∈ s.waves, ∀ i, ∃ m : ℤ, s.periodicity * w.vector i = m) → ∀ n : IVec,
      s.energy L (fun i => r i + n i * L i) type = s.energy L r type ∧
      s.force L (fun i => r i + n i * L i) type = s.force L r type) := by
  refine ⟨?_, fun hL hw n => ?_⟩
  · simp only [s.energy_eq, s.force_eq]
    exact isForce_wave _ _ _ _ _
  · have h := cosSum_periodic (ws := s.terms L type) (u := fun i => n i * L i) (fun w hw' => by
      unfold General.terms at hw'
      obtain ⟨v, hv, rfl⟩ := List.mem_map.1 hw'
      exact waveQ_lattice hL (hw v hv) n) r
    simp only [s.energy_eq, s.force_eq]
    rw [h.1, h.2]
    exact ⟨rfl, rfl⟩

theorem tanh_ne_zero {x : ℝ} (h : x ≠ 0) : Real.tanh x ≠ 0 := by
  rw [Real.tanh_eq_sinh_div_cosh]
  exact div_ne_zero (fun e => h (Real.sinh_eq_zero.1 e)) (Real.cosh_pos x).ne'

/-- A wave of half the period. -/
noncomputable def halfWave : Periodic :=
  { prefactor := fun _ => 1, externalParameter := 1, C := 0
    waves := [(![1 / 4, 0, 0], 0)], shift := fun _ => 0, interfaceWidth := 1, periodicity := 1 }

/-- Wave vectors are read as numbers, not as integers: a periodic field that does not have
the periodicity of the cell. -/
theorem C60_periodic_violated :
    halfWave.energy (fun _ => 1) (fun i => 0 + (![1, 0, 0] : IVec) i * 1) 0 ≠
      halfWave.energy (fun _ => 1) (fun _ => 0) 0 := by
  have e : (2.0 : ℝ) = 2 := by norm_num
  have e1 : halfWave.energy (fun _ => 1) (fun i => 0 + (![1, 0, 0] : IVec) i * 1) 0 = 0 := by
    unfold Periodic.energy halfWave
    have : (2 : ℝ) * Real.pi * (1 / 4) = Real.pi / 2 := by ring
    simp [vdot, waveQ, e, -one_div, this]
  have e2 : halfWave.energy (fun _ => 1) (fun _ => 0) 0 = Real.tanh (1 / (2 * Real.pi)) := by
    unfold Periodic.energy halfWave
    simp [vdot, waveQ, e, lit1]
  rw [e1, e2]
  exact (tanh_ne_zero (by positivity)).symm

/-- A field with one wave in the last direction. -/
noncomputable def oneWave : Simple :=
  { prefactor := fun _ => 1, externalParameter := 1, waves := [![0, 0, 1]]
    interfaceWidth := 1, periodicity := 1 }

/-- A monoclinic cell. -/
noncomputable def tilted : Mono := Mono.default.setMonoclinic (fun _ => 1) (3 / 4)

/-- In a monoclinic cell the wave vectors are computed from the distances between faces
and the periodic fields do not have the periodicity of the cell. -/
theorem C60_monoclinic_violated :
    oneWave.energy tilted.lengths (tilted.applyShift (fun _ => 0) 2 1) 0 ≠
      oneWave.energy tilted.lengths (fun _ => 0) 0 := by
  have e : (2.0 : ℝ) = 2 := by norm_num
  have hl : tilted.lengths 2 = 4 / 5 := by
    show (1 : ℝ) / Real.sqrt (1 + -(3 / 4) / 1 * (-(3 / 4) / 1)) = 4 / 5
    have : Real.sqrt (1 + -(3 / 4) / 1 * (-(3 / 4) / 1)) = 5 / 4 := by
      rw [Real.sqrt_eq_iff_mul_self_eq (by norm_num) (by norm_num)]
      norm_num
    rw [this]
    norm_num
  have hs : tilted.applyShift (fun _ => 0) 2 1 = ![0, 0, 1] := by
    show ![(0 : ℝ), 0, 0 + ((1 : ℤ) : ℝ) * 1] = ![0, 0, 1]
    simp
  have e1 : oneWave.energy tilted.lengths (tilted.applyShift (fun _ => 0) 2 1) 0 = 0 := by
    rw [hs]
    unfold Simple.energy oneWave
    have h2 : (2 : ℝ) * Real.pi / (4 / 5) = Real.pi / 2 + 2 * Real.pi := by ring
    simp [vdot, waveQ, e, hl, h2]
  have e2 : oneWave.energy tilted.lengths (fun _ => 0) 0 = Real.tanh (1 / (2 * Real.pi)) := by
    unfold Simple.energy oneWave
    simp [vdot, waveQ, e, lit1]
  rw [e1, e2]
  exact (tanh_ne_zero (by positivity)).symm

/-! ### Nucleation field -/

/-- **C60** (partial): without a window the force of the nucleation field is minus the
gradient of the energy. Missing: a window, for which it is false, see
`C60_nucleation_violated`. -/
theorem C60_nucleation_partial (s : Nucleation) (h : s.nucleationClip = 0) (L r : Vec) (type : ℤ) :
    IsForce (fun x => s.energy L x type) (s.force L r type) r := by
  have hw : ∀ x i, s.window L x i = 1 / 2 := by
    intro x i
    unfold Nucleation.window
    rw [h]
    simp
  have e1 : (fun x => s.energy L x type) = fun x => s.toPeriodic.energy L x type * (1 / 8) := by
    funext x
    unfold Nucleation.energy
    simp only [hw]
    ring
  have hf := HasFDerivAt.mul_const (C60_periodic_partial s.toPeriodic L r type).1 (1 / 8)
  rw [e1]
  refine isForce_of_hasFDerivAt hf fun v => ?_
  unfold Nucleation.force Nucleation.edge
  simp only [hw, h, _root_.smul_apply, _root_.neg_apply, lin_apply, smul_eq_mul,
    Matrix.cons_val_zero, Matrix.cons_val_one, Matrix.cons_val]
  ring

/-- With a window, atoms of a type whose prefactor is zero have no energy anywhere but are
subject to a force. -/
theorem C60_nucleation_violated (s : Nucleation) (L r : Vec) (type : ℤ) (hL : L 0 ≠ 0)
    (h : s.prefactor type = 0) (hc : s.nucleationClip ≠ 0) (ht : Real.sin (s.theta L r 0) ≠ 0) :
    (∀ x, s.energy L x type = 0) ∧ s.force L r type 0 ≠ 0 ∧
    ¬ IsForce (fun x => s.energy L x type) (s.force L r type) r := by
  have h1 : ∀ x, s.energy L x type = 0 := by
    intro x
    unfold Nucleation.energy
    rw [s.toPeriodic.energy_eq, h]
    ring
  have hw : ∀ i, s.window L r i ≠ 0 := by
    intro i
    unfold Nucleation.window
    have h2 := Real.neg_one_lt_tanh (s.nucleationClip * (- s.bias + Real.cos (s.theta L r i)))
    have : 0 < Real.tanh (s.nucleationClip * (- s.bias + Real.cos (s.theta L r i))) + 1 := by linarith
    positivity
  have h2 : s.force L r type 0 ≠ 0 := by
    have e : s.force L r type 0 = s.edge L r 0 1 2 := by
      show s.toPeriodic.force L r type 0 * (s.window L r 0 * s.window L r 1 * s.window L r 2) + _ = _
      rw [s.toPeriodic.force_eq]
      dsimp only
      rw [h]
      ring
    rw [e]
    unfold Nucleation.edge
    have := (Real.cosh_pos (s.theta L r 0)).ne'
    have hp := Real.pi_ne_zero
    exact mul_ne_zero (mul_ne_zero (div_ne_zero (div_ne_zero
      (mul_ne_zero hc (mul_ne_zero (div_ne_zero hp hL) ht)) this) this) (hw 1)) (hw 2)
  refine ⟨h1, h2, fun hf => h2 ?_⟩
  have h3 : IsForce (fun x => s.energy L x type) (fun _ => 0) r := by
    have e : (fun x => s.energy L x type) = fun _ => (0 : ℝ) := funext h1
    rw [e]
    exact isForce_of_hasFDerivAt (hasFDerivAt_const (0 : ℝ) r) (by simp)
  exact congrFun (hf.unique h3) 0

/-! ### Tabulated field -/

/-- The bin of a distance, counted from zero. -/
noncomputable def Tabulated.bin (s : Tabulated) (d : ℝ) : ℤ := ⌊d / s.dr⌋

/-- Euclidean distance from the centre of the cell. -/
noncomputable def centreDist (b : Ortho) (r : Vec) : ℝ :=
  Real.sqrt ((r 0 - b.lengths 0 / 2) ^ 2 + (r 1 - b.lengths 1 / 2) ^ 2 + (r 2 - b.lengths 2 / 2) ^ 2)

theorem half_eq (x : ℝ) : x * 0.5 = x / 2 := by norm_num; ring

theorem distanceSq_centre {b : Ortho} {r : Vec} (h : ∀ i, |r i - b.lengths i / 2| ≤ b.half i) :
    b.separation r (centre b.lengths) = (fun i => r i - b.lengths i / 2) ∧
    b.distanceSq r (centre b.lengths) = centreDist b r ^ 2 := by
  have e : b.separation r (centre b.lengths) = fun i => r i - b.lengths i / 2 := by
    funext i
    unfold Ortho.separation image1 centre
    rw [half_eq, if_neg (not_lt.2 (h i))]
  refine ⟨e, ?_⟩
  unfold Ortho.distanceSq centreDist
  rw [e, Real.sq_sqrt (by positivity)]
  ring

theorem centreDist_nonneg (b : Ortho) (r : Vec) : 0 ≤ centreDist b r := Real.sqrt_nonneg _

/-- Value of the energy inside the table. -/
theorem Tabulated.energy_of {rMax : ℝ} {nr : ℤ} {table : ℤ → ℤ → ℝ} (hm : 0 < rMax) (hn : 2 ≤ nr)
    {b : Ortho} {r : Vec} (hi : ∀ i, |r i - b.lengths i / 2| ≤ b.half i)
    (hr : centreDist b r < rMax) (type : ℤ) {s : Tabulated} (hs : s = Tabulated.read rMax nr table) :
    s.energy b r type = (check (centreDist b r - s.bin (centreDist b r) * s.dr ≤ 1) >>= fun _ =>
      ok ((1 - (centreDist b r - s.bin (centreDist b r) * s.dr)) *
        s.potentials type (s.bin (centreDist b r)) +
        (centreDist b r - s.bin (centreDist b r) * s.dr) *
          s.potentials type (s.bin (centreDist b r) + 1))) ∧
    s.force b r type = ok fun i => (r i - b.lengths i / 2) *
      ((s.potentials type (s.bin (centreDist b r)) - s.potentials type (s.bin (centreDist b r) + 1)) /
        s.dr / centreDist b r) := by
  obtain ⟨h1, h2⟩ := distanceSq_centre hi
  have h0 := centreDist_nonneg b r
  have hn' : (0 : ℝ) < ((nr - 1 : ℤ) : ℝ) := by
    exact_mod_cast (by omega : (0 : ℤ) < nr - 1)
  have hdr : 0 < s.dr := by
    rw [hs]
    exact div_pos hm hn'
  have hsq : centreDist b r ^ 2 < s.rMaxSq := by
    rw [hs]
    show _ < rMax * rMax
    nlinarith
  have hq : 0 ≤ centreDist b r / s.dr := div_nonneg h0 hdr.le
  have hk : trunc (centreDist b r / s.dr) = s.bin (centreDist b r) := trunc_of_nonneg hq
  have hk0 : s.bin (centreDist b r) ≥ 0 := Int.floor_nonneg.2 hq
  have hk1 : s.bin (centreDist b r) < s.nr - 1 := by
    unfold Tabulated.bin
    rw [Int.floor_lt, div_lt_iff₀ hdr, hs]
    show _ < ((nr - 1 : ℤ) : ℝ) * (rMax / ((nr - 1 : ℤ) : ℝ))
    rw [mul_div_cancel₀ _ hn'.ne']
    exact hr
  have hfp : centreDist b r - s.bin (centreDist b r) * s.dr ≥ 0 := by
    have := Int.floor_le (centreDist b r / s.dr)
    rw [le_div_iff₀ hdr] at this
    unfold Tabulated.bin
    linarith
  constructor
  · unfold Tabulated.energy
    dsimp only
    rw [h2, if_pos hsq, Real.sqrt_sq h0, hk, check_true hk0, ok_bind, check_true hk1, ok_bind,
      check_true hfp, ok_bind, lit1]
  · unfold Tabulated.force
    dsimp only
    rw [h1, h2, if_pos hsq, Real.sqrt_sq h0, hk, check_true hk0, ok_bind, check_true hk1, ok_bind]

/-- A position inside the table, inside a bin, at the centre of no cell face. -/
structure Tabulated.Inside (s : Tabulated) (b : Ortho) (r : Vec) : Prop where
  cell : ∀ i, |r i - b.lengths i / 2| < b.half i
  pos : 0 < centreDist b r
  lt : centreDist b r < s.rMax
  bin : ∀ k : ℤ, centreDist b r ≠ k * s.dr

/-- **C60** (tabulated field, partial): if the distance of points of the table is at most
one, the energy is defined near every position inside a bin, and minus its gradient is
the force times the distance of points. So the force is minus the gradient if and only if
the distance of points is one or the force is zero. Missing: other distances, for which it
is false, and distances greater than one, for which the energy throws, see
`C60_tabulated_throws`. -/
theorem C60_tabulated_partial {rMax : ℝ} {nr : ℤ} {table : ℤ → ℤ → ℝ} (hm : 0 < rMax) (hn : 2 ≤ nr)
    {s : Tabulated} (hs : s = Tabulated.read rMax nr table) (hd : s.dr ≤ 1) (b : Ortho) (r : Vec)
    (type : ℤ) (h : s.Inside b r) :
    ∃ (U : Vec → ℝ) (F : Vec), (∀ᶠ x in nhds r, s.energy b x type = ok (U x)) ∧
      s.force b r type = ok F ∧ IsForce U (fun i => s.dr * F i) r ∧
      (IsForce U F r ↔ s.dr = 1 ∨ F = fun _ => 0) := by
  have hn' : (0 : ℝ) < ((nr - 1 : ℤ) : ℝ) := by
    exact_mod_cast (by omega : (0 : ℤ) < nr - 1)
  have hdr : 0 < s.dr := by
    rw [hs]
    exact div_pos hm hn'
  have hrm : s.rMax = rMax := by rw [hs]; rfl
  have hpos := h.pos
  obtain ⟨k, hk⟩ : ∃ k, k = s.bin (centreDist b r) := ⟨_, rfl⟩
  obtain ⟨P, hP⟩ : ∃ P, P = s.potentials type k := ⟨_, rfl⟩
  obtain ⟨Q, hQ⟩ : ∃ Q, Q = s.potentials type (k + 1) := ⟨_, rfl⟩
  have hcont : Continuous (centreDist b) := by
    unfold centreDist
    fun_prop
  have h1 : ∀ᶠ x in nhds r, ∀ i, |x i - b.lengths i / 2| < b.half i := by
    rw [Filter.eventually_all]
    intro i
    have : ContinuousAt (fun x : Vec => |x i - b.lengths i / 2|) r :=
      ((continuous_apply i).sub continuous_const).abs.continuousAt
    exact this.eventually (gt_mem_nhds (h.cell i))
  have h2 : ∀ᶠ x in nhds r, centreDist b x < rMax :=
    hcont.continuousAt.eventually (gt_mem_nhds (hrm ▸ h.lt))
  have h3 : ∀ᶠ x in nhds r, s.bin (centreDist b x) = k := by
    have hl : k * s.dr < centreDist b r := by
      refine lt_of_le_of_ne ?_ (h.bin k).symm
      rw [hk, ← le_div_iff₀ hdr]
      exact Int.floor_le _
    have hu : centreDist b r < (k + 1) * s.dr := by
      rw [hk, ← div_lt_iff₀ hdr]
      exact Int.lt_floor_add_one _
    filter_upwards [hcont.continuousAt.eventually (gt_mem_nhds hu),
      hcont.continuousAt.eventually (lt_mem_nhds hl)] with x hx1 hx2
    unfold Tabulated.bin
    rw [Int.floor_eq_iff]
    exact ⟨(le_div_iff₀ hdr).2 hx2.le, (div_lt_iff₀ hdr).2 hx1⟩
  have hfr := (Tabulated.energy_of (table := table) hm hn (fun i => (h.cell i).le) (hrm ▸ h.lt) type
    hs).2
  rw [← hk, ← hP, ← hQ] at hfr
  have hforce : IsForce (fun x => (1 - (centreDist b x - k * s.dr)) * P +
      (centreDist b x - k * s.dr) * Q)
      (fun i => s.dr * ((r i - b.lengths i / 2) * ((P - Q) / s.dr / centreDist b r))) r := by
    have hg : HasFDerivAt (fun x : Vec => (x 0 - b.lengths 0 / 2) ^ 2 + (x 1 - b.lengths 1 / 2) ^ 2 +
        (x 2 - b.lengths 2 / 2) ^ 2) (lin fun i => 2 * (r i - b.lengths i / 2)) r := by
      have key : ∀ i, HasFDerivAt (fun x : Vec => (x i - b.lengths i / 2) ^ 2)
          ((2 * (r i - b.lengths i / 2)) •
            ContinuousLinearMap.proj (R := ℝ) (φ := fun _ : Fin 3 => ℝ) i) r := by
        intro i
        have h5 : HasDerivAt (fun y : ℝ => (y - b.lengths i / 2) ^ 2)
            (2 * (r i - b.lengths i / 2)) (r i) := by
          have := ((hasDerivAt_id (r i)).sub_const (b.lengths i / 2)).fun_pow 2
          refine this.congr_deriv ?_
          simp
        exact h5.comp_hasFDerivAt r (hasFDerivAt_coord i r)
      refine (((key 0).add (key 1)).add (key 2)).congr_fderiv ?_
      ext v
      simp only [_root_.add_apply, _root_.smul_apply, lin_apply, smul_eq_mul,
        ContinuousLinearMap.proj_apply]
    have hne : (r 0 - b.lengths 0 / 2) ^ 2 + (r 1 - b.lengths 1 / 2) ^ 2 +
        (r 2 - b.lengths 2 / 2) ^ 2 ≠ 0 := by
      intro e
      unfold centreDist at hpos
      rw [e, Real.sqrt_zero] at hpos
      exact lt_irrefl _ hpos
    have hsq := (Real.hasDerivAt_sqrt hne).comp_hasFDerivAt r hg
    have hU : HasFDerivAt (fun x => (1 - (centreDist b x - k * s.dr)) * P +
        (centreDist b x - k * s.dr) * Q) ((Q - P) • ((1 / (2 * centreDist b r)) •
          lin fun i => 2 * (r i - b.lengths i / 2))) r := by
      have h6 : HasFDerivAt (centreDist b) ((1 / (2 * centreDist b r)) •
          lin fun i => 2 * (r i - b.lengths i / 2)) r := hsq
      have h7 := ((h6.sub_const (k * s.dr)).const_mul (Q - P)).const_add P
      refine h7.congr_of_eventuallyEq (Filter.Eventually.of_forall fun x => ?_)
      ring
    refine isForce_of_hasFDerivAt hU fun v => ?_
    simp only [_root_.smul_apply, lin_apply, smul_eq_mul]
    have := hpos.ne'
    have := hdr.ne'
    field_simp
    ring
  refine ⟨_, _, ?_, hfr, hforce, ?_⟩
  · filter_upwards [h1, h2, h3] with x hx1 hx2 hx3
    have := (Tabulated.energy_of (table := table) hm hn (fun i => (hx1 i).le) hx2 type hs).1
    rw [hx3] at this
    rw [this, check_true, ok_bind, hP, hQ]
    have hu : centreDist b x < (k + 1) * s.dr := by
      rw [← hx3, ← div_lt_iff₀ hdr]
      exact Int.lt_floor_add_one _
    linarith
  · constructor
    · intro hF
      have e := hF.unique hforce
      by_cases h1 : s.dr = 1
      · exact Or.inl h1
      · refine Or.inr (funext fun i => ?_)
        have := congrFun e i
        have h8 : (1 - s.dr) * ((r i - b.lengths i / 2) * ((P - Q) / s.dr / centreDist b r)) = 0 := by
          linarith
        rcases mul_eq_zero.1 h8 with h9 | h9
        · exact absurd (by linarith) h1
        · exact h9
    · rintro (h1 | h0)
      · rw [h1] at hforce ⊢
        simpa using hforce
      · rw [h0]
        have := congrFun h0
        simpa [this] using hforce

/-- If the distance of points is greater than one, the energy throws at positions whose
distance from the lower point of the bin is greater than one. -/
theorem C60_tabulated_throws {rMax : ℝ} {nr : ℤ} {table : ℤ → ℤ → ℝ} (hm : 0 < rMax) (hn : 2 ≤ nr)
    {s : Tabulated} (hs : s = Tabulated.read rMax nr table) (b : Ortho) (r : Vec)
    (type : ℤ) (hi : ∀ i, |r i - b.lengths i / 2| ≤ b.half i) (hr : centreDist b r < rMax)
    (h : 1 < centreDist b r - s.bin (centreDist b r) * s.dr) : s.energy b r type = .throw := by
  rw [(Tabulated.energy_of (table := table) hm hn hi hr type hs).1, check_false (not_le.2 h)]
  rfl

/-! ### Examples -/

/-- A slit with repelling walls. -/
noncomputable def slitEx : Wall := Wall.read 1 1 2

theorem slitEx_coeff : slitEx.coeff = 4 * 1 * Real.pi / 45 * (7 / 10) * (1 * 1 * 1) :=
  wallCoeff_eq _ _

/-- The hypotheses of `C60_walls_partial` hold near the wall, and the force is not zero. -/
example : 0 < slitEx.sigmaCb ∧ slitEx.Smooth 10 1 ∧ slitEx.forceAt 10 1 ≠ 0 := by
  have hw : wallDist 10 1 = 1 := by unfold wallDist; norm_num
  refine ⟨by unfold slitEx Wall.read; norm_num, Or.inr ⟨by norm_num, ?_, ?_⟩, ?_⟩
  · rw [hw]
    unfold slitEx Wall.read
    norm_num
  · rw [hw]
    unfold slitEx Wall.read
    norm_num
  · rw [Wall.forceAt_eq, if_neg (by norm_num), hw]
    unfold Wall.force1
    dsimp only
    rw [slitEx_coeff, if_pos (by unfold slitEx Wall.read; norm_num),
      if_neg (by unfold slitEx Wall.read; norm_num)]
    unfold slitEx Wall.read
    have := Real.pi_pos
    norm_num

/-- The hypotheses of `C60_walls_cap_violated` hold inside and beyond the wall. -/
example : 0 < slitEx.sigmaCb ∧ 0 < slitEx.coeff ∧
    ∀ x ∈ ({1 / 4, -1 / 4} : Set ℝ), wallDist 10 x < slitEx.cutoff ∧
      wallDist 10 x ^ 3 < 0.129615 * slitEx.sigmaCb ∧ wallDist 10 x ≠ 0 := by
  refine ⟨by unfold slitEx Wall.read; norm_num, ?_, ?_⟩
  · rw [slitEx_coeff]
    have := Real.pi_pos
    positivity
  · intro x hx
    have hw : wallDist 10 x = x := by
      unfold wallDist
      rcases hx with rfl | rfl <;> norm_num
    rw [hw]
    unfold slitEx Wall.read
    rcases hx with rfl | rfl <;> norm_num

/-- A sequence of calls of `SlitExternal::set`. -/
example : ∃ s, loop (fun (s : Wall) (c : String × ℝ) => s.slitSet c.1 c.2)
    [("epsilon", 2), ("sigma", 3)] (Wall.read 1 1 2) = ok s ∧ s.epsilon = 2 ∧ s.sigma = 3 := by
  refine ⟨_, rfl, rfl, rfl⟩

/-- A lattice translation and wave vectors of the cell. -/
example : (∀ i, (fun _ => 2 : Vec) i ≠ 0) ∧ ∀ w ∈ ([(![1, 0, 2], 0)] : List (Vec × ℝ)),
    ∀ i, ∃ m : ℤ, ((1 : ℤ) : ℝ) * w.1 i = m := by
  refine ⟨fun _ => by norm_num, fun w hw i => ?_⟩
  rw [List.mem_singleton] at hw
  subst hw
  refine ⟨![1, 0, 2] i, ?_⟩
  fin_cases i <;> simp

/-- A nucleation field with a window, for atoms whose prefactor is zero. -/
noncomputable def nucleationEx : Nucleation :=
  { prefactor := fun _ => 0, externalParameter := 1, C := 0, waves := [], shift := fun _ => 0
    interfaceWidth := 1, periodicity := 1, nucleationClip := 1, bias := 0 }

example : nucleationEx.prefactor 0 = 0 ∧ nucleationEx.nucleationClip ≠ 0 ∧
    Real.sin (nucleationEx.theta (fun _ => 1) (fun _ => 0) 0) ≠ 0 := by
  refine ⟨rfl, one_ne_zero, ?_⟩
  unfold Nucleation.theta nucleationEx
  simp

/-- A table whose points have distance 1/2. -/
noncomputable def tabEx : Tabulated := Tabulated.read 1 3 fun _ j => j

theorem tabEx_dr : tabEx.dr = 1 / 2 := by
  show (1 : ℝ) / ((3 - 1 : ℤ) : ℝ) = 1 / 2
  norm_num

/-- A cell of length four. -/
noncomputable def cellEx : Ortho := Ortho.default.setCubic 4

theorem cellEx_values : (∀ i, cellEx.lengths i = 4) ∧ ∀ i, cellEx.half i = 2 := by
  constructor
  · intro i
    show (![4, 4, 4] : Vec) i - 0 = 4
    fin_cases i <;> simp
  · intro i
    show 1 / 2 * ((![4, 4, 4] : Vec) i - 0) = 2
    fin_cases i <;> norm_num

theorem cellEx_dist (a : ℝ) (h : 0 ≤ a) : centreDist cellEx ![2 + a, 2, 2] = a := by
  unfold centreDist
  rw [cellEx_values.1, cellEx_values.1, cellEx_values.1]
  have e : ((![2 + a, 2, 2] : Vec) 0 - 4 / 2) ^ 2 + ((![2 + a, 2, 2] : Vec) 1 - 4 / 2) ^ 2 +
      ((![2 + a, 2, 2] : Vec) 2 - 4 / 2) ^ 2 = a ^ 2 := by
    show (2 + a - 4 / 2) ^ 2 + ((2 : ℝ) - 4 / 2) ^ 2 + ((2 : ℝ) - 4 / 2) ^ 2 = a ^ 2
    ring
  rw [e]
  exact Real.sqrt_sq h

/-- The hypotheses of `C60_tabulated_partial` hold, and the force is not minus the gradient. -/
example : tabEx.dr ≤ 1 ∧ tabEx.Inside cellEx ![2 + 1 / 4, 2, 2] ∧ tabEx.dr ≠ 1 ∧
    ∃ F, tabEx.force cellEx ![2 + 1 / 4, 2, 2] 0 = ok F ∧ F ≠ fun _ => 0 := by
  have hd := cellEx_dist (1 / 4) (by norm_num)
  have hin : tabEx.Inside cellEx ![2 + 1 / 4, 2, 2] := by
    refine ⟨fun i => ?_, by rw [hd]; norm_num, ?_, fun k hk => ?_⟩
    · rw [cellEx_values.1, cellEx_values.2]
      fin_cases i <;> norm_num
    · rw [hd]
      show (1 / 4 : ℝ) < 1
      norm_num
    · rw [hd, tabEx_dr] at hk
      have : (2 * k : ℝ) = 1 := by linarith
      have h2 : 2 * k = 1 := by exact_mod_cast this
      omega
  refine ⟨by rw [tabEx_dr]; norm_num, hin, by rw [tabEx_dr]; norm_num, ?_⟩
  refine ⟨_, (Tabulated.energy_of one_pos (by norm_num) (fun i => (hin.cell i).le) hin.lt 0 rfl).2, ?_⟩
  intro e
  have e0 := congrFun e 0
  rw [hd] at e0
  have hb : (Tabulated.read 1 3 fun _ j => (j : ℝ)).bin (1 / 4) = 0 := by
    show ⌊(1 / 4 : ℝ) / tabEx.dr⌋ = 0
    rw [tabEx_dr, Int.floor_eq_zero_iff]
    norm_num
  rw [hb, cellEx_values.1] at e0
  have hdr : (Tabulated.read 1 3 fun _ j => (j : ℝ)).dr = 1 / 2 := tabEx_dr
  rw [hdr] at e0
  unfold Tabulated.read at e0
  norm_num at e0

/-- A table whose points have distance two: the energy at distance 3/2 throws. -/
example : (Tabulated.read 2 2 fun _ j => (j : ℝ)).energy cellEx ![2 + 3 / 2, 2, 2] 0 = .throw := by
  have hd := cellEx_dist (3 / 2) (by norm_num)
  refine C60_tabulated_throws (by norm_num) (by norm_num) rfl cellEx _ 0 (fun i => ?_) ?_ ?_
  · rw [cellEx_values.1, cellEx_values.2]
    fin_cases i <;> norm_num
  · rw [hd]
    norm_num
  · have hdr : (Tabulated.read 2 2 fun _ j => (j : ℝ)).dr = 2 := by
      show (2 : ℝ) / ((2 - 1 : ℤ) : ℝ) = 2
      norm_num
    have hb : (Tabulated.read 2 2 fun _ j => (j : ℝ)).bin (3 / 2) = 0 := by
      unfold Tabulated.bin
      rw [hdr, Int.floor_eq_zero_iff]
      norm_num
    rw [hd, hb]
    norm_num

end Verif.External
