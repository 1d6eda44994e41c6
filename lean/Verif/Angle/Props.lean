import Verif.Angle.Curve
import Mathlib.Analysis.SpecialFunctions.Trigonometric.InverseDeriv

/-!
# Properties of the angle interactions (C30, C53)
-/

set_option autoImplicit false

namespace Verif.Angle

open Verif.Boundary hiding dot
open Verif.Pair Verif.Bond

/-! ## Specification -/

/-- `F` is the gradient of the energy `E` of the cosine with respect to the two bond vectors:
whatever the velocities of the two vectors, the energy changes at the rate given by `F`. -/
def IsGrad (E : ℝ → ℝ) (F : Vec × Vec) (b1 b2 : Vec) : Prop :=
  ∀ v1 v2 : Vec, HasDerivAt
    (fun t : ℝ => E (cosOf (fun i => b1 i + t * v1 i) (fun i => b2 i + t * v2 i)))
    (dot F.1 v1 + dot F.2 v2) 0

/-- The forces `f` on three atoms at `R` are minus the gradient of the energy with respect to
positions, with no total force and no total torque. -/
structure IsForce (E : ℝ → ℝ) (f : Fin 3 → Vec) (R : Fin 3 → Vec) : Prop where
  grad : ∀ v : Fin 3 → Vec, HasDerivAt
    (fun t : ℝ => E (cosOf (fun i => (R 1 i + t * v 1 i) - (R 0 i + t * v 0 i))
      (fun i => (R 2 i + t * v 2 i) - (R 1 i + t * v 1 i))))
    (-(dot (f 0) (v 0) + dot (f 1) (v 1) + dot (f 2) (v 2))) 0
  total : ∀ i, f 0 i + f 1 i + f 2 i = 0
  torque : ∀ i, cross (R 0) (f 0) i + cross (R 1) (f 1) i + cross (R 2) (f 2) i = 0

/-! ## Lemmas -/

theorem line_zero (x v : Vec) : (fun i => x i + (0 : ℝ) * v i) = x := by funext i; ring

theorem isGrad_of {E : ℝ → ℝ} {g : ℝ} {F : Vec × Vec} {b1 b2 : Vec} (h1 : 0 < normSq b1)
    (h2 : 0 < normSq b2) (hE : HasDerivAt E g (cosOf b1 b2))
    (hF1 : ∀ i, F.1 i = g * (bendForce b1 b2).d1 i) (hF2 : ∀ i, F.2 i = g * (bendForce b1 b2).d2 i) :
    IsGrad E F b1 b2 := by
  intro v1 v2
  have hc := (moves_line b1 v1).cosOf (moves_line b2 v2) (by rw [line_zero]; exact h1)
    (by rw [line_zero]; exact h2)
  rw [line_zero, line_zero] at hc
  have hE' : HasDerivAt E g (cosOf (fun i => b1 i + (0 : ℝ) * v1 i) (fun i => b2 i + (0 : ℝ) * v2 i)) := by
    rw [line_zero, line_zero]; exact hE
  refine (HasDerivAt.comp (h := fun t : ℝ => cosOf (fun i => b1 i + t * v1 i) (fun i => b2 i + t * v2 i))
    0 hE' hc).congr_deriv ?_
  unfold dot
  simp only [hF1, hF2]
  ring

/-- Forces along the derivatives of the cosine exert no torque. -/
theorem torque_of {g : ℝ} {F : Vec × Vec} {b1 b2 : Vec}
    (hF1 : ∀ i, F.1 i = g * (bendForce b1 b2).d1 i) (hF2 : ∀ i, F.2 i = g * (bendForce b1 b2).d2 i)
    (i : Fin 3) : cross b1 F.1 i + cross b2 F.2 i = 0 := by
  fin_cases i <;> simp [cross, hF1, hF2, bendForce] <;> ring

theorem isForce_of {E : ℝ → ℝ} {F : Vec × Vec} {R : Fin 3 → Vec}
    (hg : IsGrad E F (fun i => R 1 i - R 0 i) (fun i => R 2 i - R 1 i))
    (ht : ∀ i, cross (fun i => R 1 i - R 0 i) F.1 i + cross (fun i => R 2 i - R 1 i) F.2 i = 0) :
    IsForce E (atomForces F) R := by
  constructor
  · intro v
    have := hg (fun i => v 1 i - v 0 i) (fun i => v 2 i - v 1 i)
    have e1 : ∀ t : ℝ, (fun i => (R 1 i - R 0 i) + t * (v 1 i - v 0 i))
        = (fun i => (R 1 i + t * v 1 i) - (R 0 i + t * v 0 i)) := by intro t; funext i; ring
    have e2 : ∀ t : ℝ, (fun i => (R 2 i - R 1 i) + t * (v 2 i - v 1 i))
        = (fun i => (R 2 i + t * v 2 i) - (R 1 i + t * v 1 i)) := by intro t; funext i; ring
    simp only [e1, e2] at this
    refine this.congr_deriv ?_
    simp [atomForces, dot]; ring
  · intro i; simp [atomForces]
  · intro i
    have := ht i
    fin_cases i <;> simp [cross, atomForces] at this ⊢ <;> linarith

theorem forceWith_eq (k : ℝ → ℝ → ℝ) {b1 b2 : Vec} {g : ℝ}
    (hk : ∀ r, k (cosOf b1 b2) r = -g / r) :
    (∀ i, (forceWith k b1 b2).1 i = g * (bendForce b1 b2).d1 i) ∧
    (∀ i, (forceWith k b1 b2).2 i = g * (bendForce b1 b2).d2 i) := by
  constructor <;> intro i <;> simp only [forceWith, bendForce, dot_div] <;>
    rw [← cosOf_eq, hk] <;> ring

/-! ## C30: cosine of the angle -/

/-- The cosine computed from two bond vectors is the cosine of an angle in `[0, π]`, the clamps
of `Bend::computeAngle` are never taken, the two ways to compute it agree, and the sine is the
sine of that angle. -/
theorem C30_cosine (b1 b2 : Vec) (h1 : 0 < normSq b1) (h2 : 0 < normSq b2) :
    computeAngle b1 b2 = cosOf b1 b2 ∧ (bendForce b1 b2).cosTheta = cosOf b1 b2 ∧
    Real.cos (Real.arccos (cosOf b1 b2)) = cosOf b1 b2 ∧
    Real.sin (Real.arccos (cosOf b1 b2)) = sinTheta (cosOf b1 b2) ∧
    dot b1 b2 = Real.sqrt (dot b1 b1) * Real.sqrt (dot b2 b2) * Real.cos (Real.arccos (cosOf b1 b2)) := by
  have hb := cosOf_bounds b1 b2
  have hcos := Real.cos_arccos hb.1 hb.2
  refine ⟨?_, bendForce_cos b1 b2, hcos, ?_, ?_⟩
  · unfold computeAngle
    have : dot b1 b2 / Real.sqrt (normSq b1 * normSq b2) = cosOf b1 b2 := rfl
    have h1 : ¬ cosOf b1 b2 > 1 := by linarith [hb.2]
    have h2 : ¬ cosOf b1 b2 < -1 := by linarith [hb.1]
    simp only [this, if_neg h1, if_neg h2]
  · rw [Real.sin_arccos, sinTheta, sq]
  · rw [hcos, ← normSq_dot, ← normSq_dot]
    change dot b1 b2 = vabs b1 * vabs b2 * cosOf b1 b2
    rw [cosOf_eq, mul_div_cancel₀]
    exact (mul_pos (vabs_pos h1) (vabs_pos h2)).ne'

/-! ## C30: forces -/

theorem cosine_grad (kappa : ℝ) {b1 b2 : Vec} (h1 : 0 < normSq b1) (h2 : 0 < normSq b2) :
    IsGrad (cosineEnergy kappa) (cosineForce kappa b1 b2) b1 b2 ∧
      ∀ i, cross b1 (cosineForce kappa b1 b2).1 i + cross b2 (cosineForce kappa b1 b2).2 i = 0 := by
  obtain ⟨e1, e2⟩ := forceWith_eq (b1 := b1) (b2 := b2) (g := -kappa) (fun _ r => kappa / r)
    (by intro r; ring)
  refine ⟨isGrad_of h1 h2 ?_ e1 e2, torque_of e1 e2⟩
  unfold cosineEnergy
  refine (((hasDerivAt_id (cosOf b1 b2)).const_sub 1).const_mul kappa).congr_deriv ?_
  ring

/-- Cosine angle: `force` is the gradient of `energy` with respect to the bond vectors; the forces
on the three atoms are minus the gradient with respect to positions and have no total force or
torque. -/
theorem C30_cosine_force (kappa : ℝ) :
    (∀ b1 b2 : Vec, 0 < normSq b1 → 0 < normSq b2 →
      IsGrad (cosineEnergy kappa) (cosineForce kappa b1 b2) b1 b2) ∧
    ∀ R : Fin 3 → Vec, R 0 ≠ R 1 → R 1 ≠ R 2 →
      IsForce (cosineEnergy kappa)
        (atomForces (cosineForce kappa (fun i => R 1 i - R 0 i) (fun i => R 2 i - R 1 i))) R := by
  refine ⟨fun b1 b2 h1 h2 => (cosine_grad kappa h1 h2).1, fun R h01 h12 => ?_⟩
  have h := cosine_grad kappa (normSq_sub_pos h01) (normSq_sub_pos h12)
  exact isForce_of h.1 h.2
where
  normSq_sub_pos {x y : Vec} (h : x ≠ y) : 0 < normSq (fun i => y i - x i) := by
    rcases eq_or_lt_of_le (normSq_nonneg fun i => y i - x i) with h0 | h0
    · exfalso
      apply h
      unfold normSq at h0
      have a0 := sq_nonneg (y 0 - x 0)
      have a1 := sq_nonneg (y 1 - x 1)
      have a2 := sq_nonneg (y 2 - x 2)
      funext i
      have : (y i - x i) ^ 2 = 0 := by fin_cases i <;> simp <;> nlinarith
      have := pow_eq_zero_iff (two_ne_zero) |>.1 this
      linarith
    · exact h0

theorem normSq_sub_pos {x y : Vec} (h : x ≠ y) : 0 < normSq (fun i => y i - x i) :=
  C30_cosine_force.normSq_sub_pos h

theorem cosSq_grad (s : CosSq) (type : ℤ) {b1 b2 : Vec} (h1 : 0 < normSq b1) (h2 : 0 < normSq b2) :
    IsGrad (fun c => s.energy c type) (s.force b1 b2 type) b1 b2 ∧
      ∀ i, cross b1 (s.force b1 b2 type).1 i + cross b2 (s.force b1 b2 type).2 i = 0 := by
  obtain ⟨e1, e2⟩ := forceWith_eq (b1 := b1) (b2 := b2)
    (g := s.kappa type * (cosOf b1 b2 - s.cosTheta0 type))
    (fun c r => s.kappa type / r * (s.cosTheta0 type - c)) (by intro r; ring)
  refine ⟨isGrad_of h1 h2 ?_ e1 e2, torque_of e1 e2⟩
  unfold CosSq.energy
  have hs := (hasDerivAt_id (cosOf b1 b2)).sub_const (s.cosTheta0 type)
  refine (((hs.const_mul (s.kappa type)).mul hs).mul_const 0.5).congr_deriv ?_
  simp only [id]
  ring

/-- Squared cosine angle. -/
theorem C30_cosSq_force (s : CosSq) (type : ℤ) :
    (∀ b1 b2 : Vec, 0 < normSq b1 → 0 < normSq b2 →
      IsGrad (fun c => s.energy c type) (s.force b1 b2 type) b1 b2) ∧
    ∀ R : Fin 3 → Vec, R 0 ≠ R 1 → R 1 ≠ R 2 →
      IsForce (fun c => s.energy c type)
        (atomForces (s.force (fun i => R 1 i - R 0 i) (fun i => R 2 i - R 1 i) type)) R := by
  refine ⟨fun b1 b2 h1 h2 => (cosSq_grad s type h1 h2).1, fun R h01 h12 => ?_⟩
  have h := cosSq_grad s type (normSq_sub_pos h01) (normSq_sub_pos h12)
  exact isForce_of h.1 h.2

theorem harmonic_grad (s : Harmonic) (type : ℤ) {b1 b2 : Vec} (h1 : 0 < normSq b1)
    (h2 : 0 < normSq b2) (hs : 1e-10 < sinTheta (cosOf b1 b2)) :
    IsGrad (fun c => s.energy c type) (s.force b1 b2 type) b1 b2 := by
  have e : s.force b1 b2 type =
      (fun i => (bendForce b1 b2).d1 i * (s.kappa type * (s.theta0 type - Real.arccos (cosOf b1 b2))
          / sinTheta (cosOf b1 b2)),
       fun i => (bendForce b1 b2).d2 i * (s.kappa type * (s.theta0 type - Real.arccos (cosOf b1 b2))
          / sinTheta (cosOf b1 b2))) := by
    simp only [Harmonic.force, bendForce_cos]
    rw [if_pos hs]
  rw [e]
  refine isGrad_of h1 h2 (g := s.kappa type * (s.theta0 type - Real.arccos (cosOf b1 b2))
      / sinTheta (cosOf b1 b2)) ?_ (fun i => mul_comm _ _) (fun i => mul_comm _ _)
  have hpos : 0 < sinTheta (cosOf b1 b2) := lt_trans (by norm_num) hs
  have hsq : 0 < 1 - cosOf b1 b2 * cosOf b1 b2 := Real.sqrt_pos.1 hpos
  have hd := Real.hasDerivAt_arccos (x := cosOf b1 b2) (by intro h; rw [h] at hsq; norm_num at hsq)
    (by intro h; rw [h] at hsq; norm_num at hsq)
  have hd := hd.sub_const (s.theta0 type)
  refine ((hd.const_mul (0.5 * s.kappa type)).mul hd).congr_deriv ?_
  rw [sq]
  change _ = s.kappa type * (s.theta0 type - Real.arccos (cosOf b1 b2)) / Real.sqrt (1 - cosOf b1 b2 * cosOf b1 b2)
  ring

theorem harmonic_torque (s : Harmonic) (type : ℤ) (b1 b2 : Vec) (i : Fin 3) :
    cross b1 (s.force b1 b2 type).1 i + cross b2 (s.force b1 b2 type).2 i = 0 := by
  simp only [Harmonic.force]
  split
  · exact torque_of (F := (_, _)) (fun i => mul_comm _ _) (fun i => mul_comm _ _) i
  · fin_cases i <;> simp [cross]

/-- Harmonic angle. The full property asks for the gradient at every pair of bond vectors; here
bond vectors that are parallel within `1e-10` are excluded, where `force` returns zero. -/
theorem C30_harmonic_force_partial (s : Harmonic) (type : ℤ) :
    (∀ b1 b2 : Vec, 0 < normSq b1 → 0 < normSq b2 → 1e-10 < sinTheta (cosOf b1 b2) →
      IsGrad (fun c => s.energy c type) (s.force b1 b2 type) b1 b2) ∧
    ∀ R : Fin 3 → Vec, R 0 ≠ R 1 → R 1 ≠ R 2 →
      1e-10 < sinTheta (cosOf (fun i => R 1 i - R 0 i) (fun i => R 2 i - R 1 i)) →
      IsForce (fun c => s.energy c type)
        (atomForces (s.force (fun i => R 1 i - R 0 i) (fun i => R 2 i - R 1 i) type)) R :=
  ⟨fun _ _ h1 h2 hs => harmonic_grad s type h1 h2 hs, fun _ h01 h12 hs =>
    isForce_of (harmonic_grad s type (normSq_sub_pos h01) (normSq_sub_pos h12) hs)
      (harmonic_torque s type _ _)⟩

/-- Two perpendicular bonds. -/
def exR : Fin 3 → Vec := ![![0, 0, 0], ![1, 0, 0], ![1, 1, 0]]

theorem exR_cos : cosOf (fun i => exR 1 i - exR 0 i) (fun i => exR 2 i - exR 1 i) = 0 := by
  simp [cosOf, exR, dot]

example : exR 0 ≠ exR 1 ∧ exR 1 ≠ exR 2 ∧
    1e-10 < sinTheta (cosOf (fun i => exR 1 i - exR 0 i) (fun i => exR 2 i - exR 1 i)) := by
  rw [exR_cos]
  refine ⟨fun h => ?_, fun h => ?_, by simp [sinTheta]; norm_num⟩
  · have := congrFun h 0; simp [exR] at this
  · have := congrFun h 1; simp [exR] at this

/-! ## C30: parameters -/

/-- Objects after `readParameters` and any sequence of successful `set("kappa", ...)`. -/
inductive CosSq.Used (n : ℤ) : CosSq → Prop
  | read (s0 : CosSq) (kappa theta0 : ℤ → ℝ) (s : CosSq) : s0.n = n → s0.read kappa theta0 = .ok s →
      CosSq.Used n s
  | setKappa (s s' : CosSq) (type : ℤ) (x : ℝ) : CosSq.Used n s → s.set "kappa" type x = .ok s' →
      CosSq.Used n s'

/-- After reading and any changes of `kappa`, the energy is zero exactly at the angle `theta0` in
degrees, for every type with a nonzero coefficient. The full property also covers changes of
`theta0`, for which it is false, see `C30_cosSq_set_stale`. -/
theorem C30_cosSq_parameters_partial (n : ℤ) (s : CosSq) (h : s.Used n) (type : ℤ) (h0 : 0 ≤ type)
    (hn : type < n) (c : ℝ) :
    s.energy c type = s.kappa type / 2 * (c - Real.cos (s.theta0 type * (Real.pi / 180))) ^ 2 := by
  have key : s.n = n ∧ s.cosTheta0 type = Real.cos (s.theta0 type * (Real.pi / 180)) := by
    induction h with
    | read s0 kappa theta0 s e hr =>
      unfold CosSq.read at hr
      split at hr
      · injection hr with hr
        subst hr
        refine ⟨e, ?_⟩
        simp only [fill1, e]
        rw [if_pos ⟨h0, hn⟩, if_pos ⟨h0, hn⟩]
        congr 1; ring
      · cases hr
    | setKappa s s' t x _ hs ih =>
      unfold CosSq.set at hs
      rw [if_pos rfl] at hs
      split at hs
      · injection hs with hs
        subst hs
        exact ih
      · cases hs
  unfold CosSq.energy
  rw [key.2]; ring

def cosSqNew : CosSq := ⟨fun _ => 0, fun _ => 0, fun _ => 0, 1⟩

/-- Object with `kappa = 1` and `theta0 = 0` for one angle type. -/
noncomputable def cosSqEx : CosSq :=
  match cosSqNew.read (fun _ => 1) (fun _ => 0) with
  | .ok s => s
  | .error _ => cosSqNew

theorem cosSqEx_used : cosSqEx.Used 1 := by
  have : cosSqNew.read (fun _ => 1) (fun _ => 0) = .ok cosSqEx := by
    unfold cosSqEx CosSq.read
    rw [if_pos (by decide)]
  exact .read _ _ _ _ rfl this

example : ∃ s : CosSq, s.Used 1 ∧ s.kappa 0 = 3 ∧ s.energy (-1) 0 = 6 := by
  have hs : cosSqEx.set "kappa" 0 3 = .ok { cosSqEx with kappa := upd1 cosSqEx.kappa 0 3 } := by
    unfold CosSq.set; simp
  have hu := CosSq.Used.setKappa _ _ 0 3 cosSqEx_used hs
  refine ⟨_, hu, by simp [upd1], ?_⟩
  rw [C30_cosSq_parameters_partial 1 _ hu 0 le_rfl (by norm_num)]
  simp [upd1, cosSqEx, CosSq.read, cosSqNew, fill1]
  norm_num

/-- After `set("theta0", type, x)` the object reports the new angle but the energy still has its
minimum at the old one. -/
theorem C30_cosSq_set_stale : ∃ s s' : CosSq, s.Used 1 ∧ s.set "theta0" 0 90 = .ok s' ∧
    s'.theta0 0 = 90 ∧ s'.kappa 0 = 1 ∧
    s'.energy (Real.cos (s'.theta0 0 * (Real.pi / 180))) 0 = 1 / 2 ∧ s'.energy 1 0 = 0 := by
  have hs : cosSqEx.set "theta0" 0 90 = .ok { cosSqEx with theta0 := upd1 cosSqEx.theta0 0 90 } := by
    unfold CosSq.set
    rw [if_neg (by decide), if_pos rfl, if_pos (by norm_num)]
  refine ⟨_, _, cosSqEx_used, hs, by simp [upd1], by simp [cosSqEx, CosSq.read, cosSqNew, fill1], ?_, ?_⟩
  · have : (90 : ℝ) * (Real.pi / 180) = Real.pi / 2 := by ring
    simp [CosSq.energy, upd1, cosSqEx, CosSq.read, cosSqNew, fill1, this]
    norm_num
  · simp [CosSq.energy, cosSqEx, CosSq.read, cosSqNew, fill1]

/-- The angle of `HarmonicAngle` in the parameter file is in degrees: the energy after reading is
the harmonic function of the angle, whose minimum is at the angle read. -/
theorem C30_harmonic_read (s0 s : Harmonic) (kappa theta0 : ℤ → ℝ) (hr : s0.read kappa theta0 = .ok s)
    (type : ℤ) (h0 : 0 ≤ type) (hn : type < s0.n) (theta : ℝ) (ht : 0 ≤ theta) (ht' : theta ≤ Real.pi) :
    s.energy (Real.cos theta) type = kappa type / 2 * (theta - theta0 type * (Real.pi / 180)) ^ 2 := by
  unfold Harmonic.read at hr
  split at hr
  · injection hr with hr
    subst hr
    simp only [Harmonic.energy, fill1, Real.arccos_cos ht ht']
    rw [if_pos ⟨h0, hn⟩, if_pos ⟨h0, hn⟩]
    ring
  · cases hr

/-- `set("theta0", ...)` of `HarmonicAngle` takes radians, so that setting the value that was in
the parameter file changes the interaction: with `kappa = 1` and `theta0 = 90` read from a file,
right angles have energy zero; after `set("theta0", 0, 90)` they have energy above 3000. -/
theorem C30_harmonic_set_units : ∃ s0 s s' : Harmonic, s0.n = 1 ∧
    s0.read (fun _ => 1) (fun _ => 90) = .ok s ∧ s.energy 0 0 = 0 ∧
    s.set "theta0" 0 90 = .ok s' ∧ 3000 < s'.energy 0 0 := by
  refine ⟨⟨fun _ => 0, fun _ => 0, 1⟩, ⟨fill1 1 (fun _ => 1) fun _ => 0,
    fill1 1 (fun _ => (90 : ℝ) * Real.pi / 180) fun _ => 0, 1⟩,
    ⟨fill1 1 (fun _ => 1) fun _ => 0,
      upd1 (fill1 1 (fun _ => (90 : ℝ) * Real.pi / 180) fun _ => 0) 0 90, 1⟩, rfl, ?_, ?_, ?_, ?_⟩
  · unfold Harmonic.read; rw [if_pos (by decide)]
  · have : Real.pi / 2 - 90 * Real.pi / 180 = 0 := by ring
    simp [Harmonic.energy, fill1, Real.arccos_zero, this]
  · unfold Harmonic.set
    rw [if_neg (by decide), if_pos rfl, if_pos (by norm_num)]
  · simp only [Harmonic.energy, fill1, upd1, Real.arccos_zero]
    have := Real.pi_lt_four
    have := Real.pi_pos
    norm_num
    nlinarith

end Verif.Angle
