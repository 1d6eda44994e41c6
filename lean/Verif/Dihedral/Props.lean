import Verif.Dihedral.Model
import Verif.Angle.Props
import Mathlib.Topology.Order.Basic
import Mathlib.Analysis.SpecialFunctions.Trigonometric.Chebyshev.Basic

/-!
# Properties of the dihedral interactions (C31)
-/

set_option autoImplicit false

namespace Verif.Dihedral

open Verif.Boundary hiding dot
open Verif.Pair Verif.Bond
open Verif.Angle hiding computeAngle cosineEnergy cosineForce forceWith atomForces mcStress ddStress ddEnergy IsGrad IsForce isGrad_of isForce_of torque_of

/-! ## Specification -/

/-- Both pairs of consecutive bonds span planes, by the criterion of the code. -/
def Regular (b1 b2 b3 : Vec) : Prop := 1e-10 < normSq (cross b1 b2) ∧ 1e-10 < normSq (cross b2 b3)

/-- Cosine of the angle between the normals of the two planes. -/
noncomputable def cosPhi (b1 b2 b3 : Vec) : ℝ :=
  dot (cross b1 b2) (cross b2 b3)
    / (Real.sqrt (dot (cross b1 b2) (cross b1 b2)) * Real.sqrt (dot (cross b2 b3) (cross b2 b3)))

/-- `F` is the gradient of `E` with respect to the three bond vectors. -/
def IsGrad (E : Vec → Vec → Vec → ℝ) (F : Fin 3 → Vec) (b1 b2 b3 : Vec) : Prop :=
  ∀ v1 v2 v3 : Vec, HasDerivAt
    (fun t : ℝ => E (fun i => b1 i + t * v1 i) (fun i => b2 i + t * v2 i) (fun i => b3 i + t * v3 i))
    (dot (F 0) v1 + dot (F 1) v2 + dot (F 2) v3) 0

/-- The forces `f` on four atoms at `R` are minus the gradient of the energy with respect to
positions, with no total force and no total torque. -/
structure IsForce (E : Vec → Vec → Vec → ℝ) (f R : Fin 4 → Vec) : Prop where
  grad : ∀ v : Fin 4 → Vec, HasDerivAt
    (fun t : ℝ => E (fun i => (R 1 i + t * v 1 i) - (R 0 i + t * v 0 i))
      (fun i => (R 2 i + t * v 2 i) - (R 1 i + t * v 1 i))
      (fun i => (R 3 i + t * v 3 i) - (R 2 i + t * v 2 i)))
    (-(dot (f 0) (v 0) + dot (f 1) (v 1) + dot (f 2) (v 2) + dot (f 3) (v 3))) 0
  total : ∀ i, f 0 i + f 1 i + f 2 i + f 3 i = 0
  torque : ∀ i, cross (R 0) (f 0) i + cross (R 1) (f 1) i + cross (R 2) (f 2) i + cross (R 3) (f 3) i = 0

/-! ## Lemmas -/

theorem cosPhi_eq (b1 b2 b3 : Vec) : cosPhi b1 b2 b3 = cosOf (cross b1 b2) (cross b2 b3) := by
  rw [cosOf_eq, cosPhi, ← normSq_dot, ← normSq_dot]; rfl

theorem computeAngle_eq {b1 b2 b3 : Vec} (h : Regular b1 b2 b3) :
    computeAngle b1 b2 b3 = some (cosPhi b1 b2 b3) := by
  simp only [computeAngle]
  rw [if_neg (not_lt.2 h.1.le), if_neg (not_lt.2 h.2.le), cosPhi, normSq_dot, normSq_dot]

theorem computeDerivatives_eq {b1 b2 b3 : Vec} (h : Regular b1 b2 b3) :
    ∃ t, computeDerivatives b1 b2 b3 = some t ∧ t.cosPhi = cosPhi b1 b2 b3 ∧
      t.d1 = cross b2 (bendForce (cross b1 b2) (cross b2 b3)).d1 ∧
      t.d2 = (fun i => cross (bendForce (cross b1 b2) (cross b2 b3)).d1 b1 i
        + cross b3 (bendForce (cross b1 b2) (cross b2 b3)).d2 i) ∧
      t.d3 = cross (bendForce (cross b1 b2) (cross b2 b3)).d2 b2 := by
  simp only [computeDerivatives]
  rw [if_neg (not_lt.2 h.1.le), if_neg (not_lt.2 h.2.le)]
  have e1 : ∀ v w : Vec, (fun i => ((v i / Real.sqrt (normSq v)) *
        -(dot (fun i => v i / Real.sqrt (normSq v)) (fun i => w i / Real.sqrt (normSq w)))
        + w i / Real.sqrt (normSq w)) * (1 / Real.sqrt (normSq v))) = (bendForce v w).d1 := by
    intro v w; funext i; simp only [bendForce, vabs]; ring
  have e2 : ∀ v w : Vec, (fun i => ((w i / Real.sqrt (normSq w)) *
        -(dot (fun i => v i / Real.sqrt (normSq v)) (fun i => w i / Real.sqrt (normSq w)))
        + v i / Real.sqrt (normSq v)) * (1 / Real.sqrt (normSq w))) = (bendForce v w).d2 := by
    intro v w; funext i; simp only [bendForce, vabs]; ring
  refine ⟨_, rfl, ?_, ?_, ?_, ?_⟩
  · simp only [dot_div]
    rw [cosPhi, normSq_dot, normSq_dot]
  · simp only [e1]
  · simp only [e1, e2]
  · simp only [e2]

theorem cross_triple (a b c : Vec) : dot (cross a b) c = dot a (cross b c) := by
  simp [dot, cross]; ring

/-- Rate of change of the cosine. -/
theorem hasDerivAt_cosPhi {b1 b2 b3 : Vec} (h : Regular b1 b2 b3) (v1 v2 v3 : Vec) {t : TorsionForce}
    (ht : computeDerivatives b1 b2 b3 = some t) :
    HasDerivAt (fun s : ℝ => cosPhi (fun i => b1 i + s * v1 i) (fun i => b2 i + s * v2 i)
      (fun i => b3 i + s * v3 i)) (dot t.d1 v1 + dot t.d2 v2 + dot t.d3 v3) 0 := by
  obtain ⟨t', ht', -, h1, h2, h3⟩ := computeDerivatives_eq h
  rw [ht] at ht'
  injection ht' with e
  subst e
  have m1 := moves_line b1 v1
  have m2 := moves_line b2 v2
  have m3 := moves_line b3 v3
  have hc := (m1.cross m2).cosOf (m2.cross m3)
    (by rw [line_zero, line_zero]; exact lt_trans (by norm_num) h.1)
    (by rw [line_zero, line_zero]; exact lt_trans (by norm_num) h.2)
  simp only [cosPhi_eq]
  refine hc.congr_deriv ?_
  rw [line_zero, line_zero, line_zero, h1, h2, h3]
  generalize (bendForce (cross b1 b2) (cross b2 b3)).d1 = p
  generalize (bendForce (cross b1 b2) (cross b2 b3)).d2 = q
  simp [dot, cross]; ring

/-- Regularity persists for a short time. -/
theorem eventually_regular {b1 b2 b3 : Vec} (h : Regular b1 b2 b3) (v1 v2 v3 : Vec) :
    ∀ᶠ s : ℝ in nhds 0, Regular (fun i => b1 i + s * v1 i) (fun i => b2 i + s * v2 i)
      (fun i => b3 i + s * v3 i) := by
  have c1 : Continuous fun s : ℝ => normSq (cross (fun i => b1 i + s * v1 i) (fun i => b2 i + s * v2 i)) := by
    simp [normSq, cross]; fun_prop
  have c2 : Continuous fun s : ℝ => normSq (cross (fun i => b2 i + s * v2 i) (fun i => b3 i + s * v3 i)) := by
    simp [normSq, cross]; fun_prop
  have z1 : (1e-10 : ℝ) < normSq (cross (fun i => b1 i + (0 : ℝ) * v1 i) (fun i => b2 i + (0 : ℝ) * v2 i)) := by
    rw [line_zero, line_zero]; exact h.1
  have z2 : (1e-10 : ℝ) < normSq (cross (fun i => b2 i + (0 : ℝ) * v2 i) (fun i => b3 i + (0 : ℝ) * v3 i)) := by
    rw [line_zero, line_zero]; exact h.2
  have e1 := (c1.tendsto 0).eventually_const_lt z1
  have e2 := (c2.tendsto 0).eventually_const_lt z2
  filter_upwards [e1, e2] with s a b using ⟨a, b⟩

theorem energyWith_eq (E : ℝ → ℝ) {b1 b2 b3 : Vec} (h : Regular b1 b2 b3) :
    energyWith E b1 b2 b3 = E (cosPhi b1 b2 b3) := by
  unfold energyWith; rw [computeAngle_eq h]

theorem forceWith_grad {E g : ℝ → ℝ} (hE : ∀ c, HasDerivAt E (g c) c) {b1 b2 b3 : Vec}
    (h : Regular b1 b2 b3) : IsGrad (energyWith E) (forceWith g b1 b2 b3) b1 b2 b3 := by
  intro v1 v2 v3
  obtain ⟨t, ht, hc, -⟩ := computeDerivatives_eq h
  have hd := hasDerivAt_cosPhi h v1 v2 v3 ht
  have := HasDerivAt.comp (h := fun s : ℝ => cosPhi (fun i => b1 i + s * v1 i) (fun i => b2 i + s * v2 i)
      (fun i => b3 i + s * v3 i)) 0 (hE _) hd
  refine (this.congr_of_eventuallyEq ?_).congr_deriv ?_
  · filter_upwards [eventually_regular h v1 v2 v3] with s hs
    rw [energyWith_eq E hs]; rfl
  · unfold forceWith
    rw [ht, line_zero, line_zero, line_zero, ← hc]
    simp [dot]; ring

theorem forceWith_torque (g : ℝ → ℝ) (b1 b2 b3 : Vec) (i : Fin 3) :
    cross b1 (forceWith g b1 b2 b3 0) i + cross b2 (forceWith g b1 b2 b3 1) i
      + cross b3 (forceWith g b1 b2 b3 2) i = 0 := by
  unfold forceWith
  cases ht : computeDerivatives b1 b2 b3 with
  | none => fin_cases i <;> simp [cross]
  | some t =>
    simp only [computeDerivatives] at ht
    split at ht
    · cases ht
    · split at ht
      · cases ht
      · injection ht with ht
        subst ht
        simp only [Matrix.cons_val_zero, Matrix.cons_val_one, Matrix.cons_val_two]
        generalize g _ = G
        generalize dot _ _ = C
        generalize Real.sqrt (normSq (cross b1 b2)) = p
        generalize Real.sqrt (normSq (cross b2 b3)) = q
        fin_cases i <;> simp [cross] <;> ring

theorem isForce_of {E : Vec → Vec → Vec → ℝ} {F : Fin 3 → Vec} {R : Fin 4 → Vec}
    (hg : IsGrad E F (fun i => R 1 i - R 0 i) (fun i => R 2 i - R 1 i) (fun i => R 3 i - R 2 i))
    (ht : ∀ i, cross (fun i => R 1 i - R 0 i) (F 0) i + cross (fun i => R 2 i - R 1 i) (F 1) i
      + cross (fun i => R 3 i - R 2 i) (F 2) i = 0) :
    IsForce E (atomForces F) R := by
  constructor
  · intro v
    have := hg (fun i => v 1 i - v 0 i) (fun i => v 2 i - v 1 i) (fun i => v 3 i - v 2 i)
    have e : ∀ (t : ℝ) (a b : Fin 4), (fun i => (R a i - R b i) + t * (v a i - v b i))
        = (fun i => (R a i + t * v a i) - (R b i + t * v b i)) := by intro t a b; funext i; ring
    simp only [e] at this
    refine this.congr_deriv ?_
    simp [atomForces, dot]; ring
  · intro i; simp [atomForces]
  · intro i
    have := ht i
    fin_cases i <;> simp [cross, atomForces] at this ⊢ <;> linarith

/-! ## C31 -/

/-- The number computed from three bonds is the cosine of the angle between the two planes; the
energy and force functions see the same cosine. -/
theorem C31_cosine (b1 b2 b3 : Vec) (h : Regular b1 b2 b3) :
    computeAngle b1 b2 b3 = some (cosPhi b1 b2 b3) ∧
    (∃ t, computeDerivatives b1 b2 b3 = some t ∧ t.cosPhi = cosPhi b1 b2 b3) ∧
    -1 ≤ cosPhi b1 b2 b3 ∧ cosPhi b1 b2 b3 ≤ 1 := by
  obtain ⟨t, ht, hc, -⟩ := computeDerivatives_eq h
  refine ⟨computeAngle_eq h, ⟨t, ht, hc⟩, ?_⟩
  rw [cosPhi_eq]
  exact cosOf_bounds _ _

/-- Cosine dihedral: energy, gradient, and forces on the atoms. The full property asks for all
bonds; nearly collinear consecutive bonds are excluded, where the code returns zero energy and
force. -/
theorem C31_cosine_force_partial (kappa : ℝ) :
    (∀ b1 b2 b3 : Vec, Regular b1 b2 b3 →
      cosineEnergy kappa b1 b2 b3 = kappa * (1 + cosPhi b1 b2 b3) ∧
      IsGrad (cosineEnergy kappa) (cosineForce kappa b1 b2 b3) b1 b2 b3) ∧
    ∀ R : Fin 4 → Vec, Regular (fun i => R 1 i - R 0 i) (fun i => R 2 i - R 1 i) (fun i => R 3 i - R 2 i) →
      IsForce (cosineEnergy kappa) (atomForces (cosineForce kappa
        (fun i => R 1 i - R 0 i) (fun i => R 2 i - R 1 i) (fun i => R 3 i - R 2 i))) R := by
  have hE : ∀ c, HasDerivAt (fun c => kappa * (1 + c)) kappa c := by
    intro c
    refine (((hasDerivAt_id c).const_add 1).const_mul kappa).congr_deriv ?_
    ring
  refine ⟨fun b1 b2 b3 h => ⟨energyWith_eq _ h, forceWith_grad hE h⟩, fun R h => ?_⟩
  exact isForce_of (forceWith_grad hE h) (forceWith_torque _ _ _ _)

theorem energy_irregular (E : ℝ → ℝ) (b1 b2 b3 : Vec)
    (h : normSq (cross b1 b2) < 1e-10 ∨ normSq (cross b2 b3) < 1e-10) : energyWith E b1 b2 b3 = 0 := by
  unfold energyWith
  simp only [computeAngle]
  by_cases h1 : normSq (cross b1 b2) < 1e-10
  · rw [if_pos h1]
  · rw [if_neg h1, if_pos (h.resolve_left h1)]

/-- The energy jumps where the criterion for collinear bonds changes: planar bonds `(1,0,0)`,
`(1,e,0)`, `(1,2e,0)` have energy zero below `e = 1e-5` and `2 kappa` above. -/
theorem C31_cosine_jump (kappa e : ℝ) :
    (0 ≤ e → e < 1e-5 → cosineEnergy kappa ![1, 0, 0] ![1, e, 0] ![1, 2 * e, 0] = 0) ∧
    (1e-5 < e → cosineEnergy kappa ![1, 0, 0] ![1, e, 0] ![1, 2 * e, 0] = 2 * kappa) := by
  have c1 : cross ![1, 0, 0] ![1, e, 0] = ![0, 0, e] := by
    ext i; fin_cases i <;> simp [cross]
  have c2 : cross ![1, e, 0] ![1, 2 * e, 0] = ![0, 0, e] := by
    ext i; fin_cases i <;> simp [cross] <;> ring
  have n1 : normSq (![0, 0, e] : Vec) = e ^ 2 := by simp [normSq]
  constructor
  · intro h0 h1
    refine energy_irregular _ _ _ _ (Or.inl ?_)
    rw [c1, n1]
    nlinarith
  · intro h1
    have hr : Regular ![1, 0, 0] ![1, e, 0] ![1, 2 * e, 0] := by
      refine ⟨?_, ?_⟩
      · rw [c1, n1]; nlinarith
      · rw [c2, n1]; nlinarith
    have he : 0 < e := lt_trans (by norm_num) h1
    have : cosPhi ![1, 0, 0] ![1, e, 0] ![1, 2 * e, 0] = 1 := by
      rw [cosPhi, c1, c2]
      simp [dot, Real.sqrt_mul_self he.le]
      exact he.ne'
    unfold cosineEnergy
    rw [energyWith_eq _ hr, this]; ring

/-! ## C31: Fourier dihedrals -/

/-- Objects after `setNDihedralType`, `readParameters`, any successful sequence of `set`, and
assignment from such an object. -/
inductive Fourier.Used (n : ℤ) : Fourier → Prop
  | read (s0 s1 : Fourier) (k : ℤ → Fin 5 → ℝ) (s : Fourier) : s0.setN n = .ok s1 → s1.read k = .ok s →
      Fourier.Used n s
  | set (s s' : Fourier) (name : String) (type : ℤ) (x : ℝ) : Fourier.Used n s →
      s.set name type x = .ok s' → Fourier.Used n s'
  | assign (old s s' : Fourier) : Fourier.Used n s → old.assign s = .ok s' → Fourier.Used n s'

theorem init_consistent (p : Coeff) : p.init.init = p.init := rfl

theorem Fourier.set_ok {s s' : Fourier} {name : String} {type : ℤ} {x : ℝ}
    (h : s.set name type x = .ok s') : ∃ p : Coeff, s' = s.put type p.init ∧ 0 ≤ type ∧ type < s.n := by
  unfold Fourier.set at h
  split at h
  · rename_i hr
    simp only at h
    split at h
    · injection h with h; exact ⟨_, h.symm, hr⟩
    · split at h
      · injection h with h; exact ⟨_, h.symm, hr⟩
      · split at h
        · injection h with h; exact ⟨_, h.symm, hr⟩
        · split at h
          · injection h with h; exact ⟨_, h.symm, hr⟩
          · split at h
            · injection h with h; exact ⟨_, h.symm, hr⟩
            · cases h
  · cases h

theorem Fourier.Used.init {n : ℤ} {s : Fourier} (h : s.Used n) :
    s.n = n ∧ ∀ type, 0 ≤ type → type < n → ∃ p : Coeff, s.coeffs type = p.init := by
  induction h with
  | read s0 s1 k s h0 hr =>
    unfold Fourier.setN at h0
    split at h0
    · cases h0
    injection h0 with h0
    subst h0
    unfold Fourier.read at hr
    split at hr
    · injection hr with hr
      subst hr
      refine ⟨rfl, fun type a b => ?_⟩
      simp only
      rw [if_pos ⟨a, b⟩]
      exact ⟨_, rfl⟩
    · cases hr
  | set s s' name type x _ hs ih =>
    obtain ⟨p, rfl, -, -⟩ := Fourier.set_ok hs
    refine ⟨ih.1, fun t a b => ?_⟩
    simp only [Fourier.put]
    split
    · exact ⟨p, rfl⟩
    · exact ih.2 t a b
  | assign old s s' _ hs ih =>
    unfold Fourier.assign at hs
    split at hs
    · cases hs
    · injection hs with hs
      subst hs
      refine ⟨ih.1, fun t a b => ?_⟩
      simp only
      rw [if_pos ⟨a, by rw [ih.1]; exact b⟩]
      exact ⟨_, rfl⟩

theorem cos_four (x : ℝ) : Real.cos (4 * x) = 8 * Real.cos x ^ 4 - 8 * Real.cos x ^ 2 + 1 := by
  have : 4 * x = 2 * (2 * x) := by ring
  rw [this, Real.cos_two_mul, Real.cos_two_mul]; ring

/-- After any history of use, the energy of a Fourier dihedral is the sum of `k_m cos(m φ)`, where
the `k_m` are the values returned by `get`. -/
theorem C31_fourier_energy (n : ℤ) (s : Fourier) (h : s.Used n) (type : ℤ) (h0 : 0 ≤ type)
    (hn : type < n) (b1 b2 b3 : Vec) (hb : Regular b1 b2 b3) :
    ∃ k : Fin 5 → ℝ, s.get "k0" type = .ok (k 0) ∧ s.get "k1" type = .ok (k 1) ∧
      s.get "k2" type = .ok (k 2) ∧ s.get "k3" type = .ok (k 3) ∧ s.get "k4" type = .ok (k 4) ∧
      ∀ phi, Real.cos phi = cosPhi b1 b2 b3 → s.energy b1 b2 b3 type
        = k 0 + k 1 * Real.cos phi + k 2 * Real.cos (2 * phi) + k 3 * Real.cos (3 * phi)
          + k 4 * Real.cos (4 * phi) := by
  obtain ⟨en, hi⟩ := h.init
  obtain ⟨p, hp⟩ := hi type h0 hn
  have hr : 0 ≤ type ∧ type < s.n := ⟨h0, en ▸ hn⟩
  refine ⟨![p.k0, p.k1, p.k2, p.k3, p.k4], ?_, ?_, ?_, ?_, ?_, ?_⟩
  iterate 5 (unfold Fourier.get; rw [if_pos hr]; simp [hp, Coeff.init])
  intro phi hphi
  simp only [Fourier.energy, hp]
  rw [energyWith_eq _ hb, ← hphi, Real.cos_two_mul, Real.cos_three_mul, cos_four]
  simp [Coeff.init]
  ring

/-- `set` then `get`: the parameter named has the new value, all the others are unchanged. -/
theorem C31_fourier_set (s s' : Fourier) (name : String) (type : ℤ) (x : ℝ)
    (h : s.set name type x = .ok s') :
    s'.get name type = .ok x ∧
    ∀ name' type', (name' ≠ name ∨ type' ≠ type) → s'.get name' type' = s.get name' type' := by
  unfold Fourier.set at h
  split at h
  swap
  · cases h
  rename_i hr
  constructor
  · simp only at h
    split at h
    · injection h with h; subst h; rename_i e; subst e; unfold Fourier.get Fourier.put; simp [hr, Coeff.init]
    · split at h
      · injection h with h; subst h; rename_i e; subst e; unfold Fourier.get Fourier.put; simp [hr, Coeff.init]
      · split at h
        · injection h with h; subst h; rename_i e; subst e; unfold Fourier.get Fourier.put; simp [hr, Coeff.init]
        · split at h
          · injection h with h; subst h; rename_i e; subst e; unfold Fourier.get Fourier.put; simp [hr, Coeff.init]
          · split at h
            · injection h with h; subst h; rename_i e; subst e; unfold Fourier.get Fourier.put; simp [hr, Coeff.init]
            · cases h
  · intro name' type' hne
    have key : ∀ p : Coeff, (s.put type p).n = s.n := fun _ => rfl
    by_cases ht : type' = type
    · subst ht
      have hne : name' ≠ name := hne.resolve_right (fun h => h rfl)
      simp only at h
      split at h
      · injection h with h; subst h; rename_i e; subst e; unfold Fourier.get Fourier.put; simp [hr, Coeff.init, hne]
      · split at h
        · injection h with h; subst h; rename_i e; subst e; unfold Fourier.get Fourier.put; simp [hr, Coeff.init, hne]
        · split at h
          · injection h with h; subst h; rename_i e; subst e; unfold Fourier.get Fourier.put; simp [hr, Coeff.init, hne]
          · split at h
            · injection h with h; subst h; rename_i e; subst e; unfold Fourier.get Fourier.put; simp [hr, Coeff.init, hne]
            · split at h
              · injection h with h; subst h; rename_i e; subst e; unfold Fourier.get Fourier.put; simp [hr, Coeff.init, hne]
              · cases h
    · obtain ⟨p, hp, -, -⟩ := Fourier.set_ok (s := s) (s' := s') (name := name) (type := type) (x := x)
        (by unfold Fourier.set; rw [if_pos hr]; exact h)
      subst hp
      unfold Fourier.get
      simp [Fourier.put, ht]

/-- Assignment copies every parameter. -/
theorem C31_fourier_assign (old s s' : Fourier) (h : old.assign s = .ok s') (name : String) (type : ℤ) :
    s'.get name type = s.get name type := by
  unfold Fourier.assign at h
  split at h
  · cases h
  · injection h with h
    subst h
    unfold Fourier.get
    simp only
    by_cases hr : 0 ≤ type ∧ type < s.n
    · simp only [if_pos hr, Coeff.init]
    · simp only [if_neg hr]

/-- After any history of use, `force` is the gradient of `energy`, and the forces on the atoms are
minus the gradient with respect to positions, without total force or torque. The full property
asks for all bonds; nearly collinear consecutive bonds are excluded. -/
theorem C31_fourier_force_partial (n : ℤ) (s : Fourier) (h : s.Used n) (type : ℤ) (h0 : 0 ≤ type)
    (hn : type < n) :
    (∀ b1 b2 b3 : Vec, Regular b1 b2 b3 →
      IsGrad (fun x y z => s.energy x y z type) (s.force b1 b2 b3 type) b1 b2 b3) ∧
    ∀ R : Fin 4 → Vec, Regular (fun i => R 1 i - R 0 i) (fun i => R 2 i - R 1 i) (fun i => R 3 i - R 2 i) →
      IsForce (fun x y z => s.energy x y z type) (atomForces (s.force
        (fun i => R 1 i - R 0 i) (fun i => R 2 i - R 1 i) (fun i => R 3 i - R 2 i) type)) R := by
  obtain ⟨p, hp⟩ := h.init.2 type h0 hn
  have hE : ∀ c, HasDerivAt (fun c => (s.coeffs type).a0 + c * ((s.coeffs type).a1 + c * ((s.coeffs type).a2
      + c * ((s.coeffs type).a3 + c * (s.coeffs type).a4))))
      ((s.coeffs type).a1 + c * ((s.coeffs type).g2 + c * ((s.coeffs type).g3 + c * (s.coeffs type).g4))) c := by
    intro c
    have i := hasDerivAt_id c
    have h4 := (i.mul_const (s.coeffs type).a4).const_add (s.coeffs type).a3
    have h3 := (i.mul h4).const_add (s.coeffs type).a2
    have h2 := (i.mul h3).const_add (s.coeffs type).a1
    refine ((i.mul h2).const_add (s.coeffs type).a0).congr_deriv ?_
    rw [hp]
    simp [Coeff.init]
    ring
  refine ⟨fun b1 b2 b3 hb => forceWith_grad hE hb, fun R hb => ?_⟩
  refine isForce_of (forceWith_grad hE hb) ?_
  unfold Fourier.force
  exact forceWith_torque _ _ _ _

/-! ## Cases that meet the hypotheses -/

/-- Four atoms, not in a plane. -/
def exR : Fin 4 → Vec := ![![0, 1, 0], ![0, 0, 0], ![1, 0, 0], ![1, 0, 1]]

theorem exR_regular : Regular (fun i => exR 1 i - exR 0 i) (fun i => exR 2 i - exR 1 i)
    (fun i => exR 3 i - exR 2 i) := by
  constructor <;> simp [normSq, cross, exR] <;> norm_num

def fourierNew : Fourier := ⟨fun _ => Coeff.zero, 0⟩

/-- One dihedral type with `k_m = m`. -/
def fourierEx : Fourier :=
  ⟨fun i => if 0 ≤ i ∧ i < 1 then Coeff.init { Coeff.zero with k0 := 0, k1 := 1, k2 := 2, k3 := 3, k4 := 4 }
    else Coeff.zero, 1⟩

theorem fourierEx_used : fourierEx.Used 1 := by
  refine .read fourierNew ⟨fun _ => Coeff.zero, 1⟩ (fun _ m => (m : ℕ)) _ ?_ ?_
  · simp [Fourier.setN]
  · unfold Fourier.read
    rw [if_pos (by decide)]
    simp [fourierEx]

/-- For this type, the energy of the dihedral above, with a right angle, is `-2 + 4 = 2`. -/
example : fourierEx.energy (fun i => exR 1 i - exR 0 i) (fun i => exR 2 i - exR 1 i)
    (fun i => exR 3 i - exR 2 i) 0 = 2 := by
  obtain ⟨k, h0, h1, h2, h3, h4, he⟩ := C31_fourier_energy 1 _ fourierEx_used 0 le_rfl (by norm_num) _ _ _ exR_regular
  have hz : cosPhi (fun i => exR 1 i - exR 0 i) (fun i => exR 2 i - exR 1 i) (fun i => exR 3 i - exR 2 i) = 0 := by
    simp [cosPhi, dot, cross, exR]
  rw [he (Real.pi / 2) (by rw [hz, Real.cos_pi_div_two])]
  have e2 : 2 * (Real.pi / 2) = Real.pi := by ring
  have e4 : Real.cos (4 * (Real.pi / 2)) = 1 := by
    have : 4 * (Real.pi / 2) = 2 * Real.pi := by ring
    rw [this, Real.cos_two_pi]
  have e3 : Real.cos (3 * (Real.pi / 2)) = 0 := by
    rw [Real.cos_three_mul, Real.cos_pi_div_two]; ring
  rw [e2, e3, e4, Real.cos_pi, Real.cos_pi_div_two]
  simp [Fourier.get, fourierEx, Coeff.init] at h0 h2 h4
  rw [← h0, ← h2, ← h4]; norm_num

end Verif.Dihedral
