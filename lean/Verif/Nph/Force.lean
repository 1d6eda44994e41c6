/-
The forces on atoms and cell are derivatives of one function of scaled coordinates, cell
and momenta: the enthalpy plus the kinetic energy of the cell.
-/
import Verif.Nph.Spec
import Mathlib.Analysis.Calculus.Deriv.Inv
import Mathlib.Analysis.Calculus.Deriv.Pow
import Mathlib.Analysis.Calculus.Deriv.Pi
import Mathlib.Analysis.Calculus.FDeriv.Pi
import Mathlib.Analysis.SpecialFunctions.Pow.Deriv

set_option autoImplicit false

namespace Verif.Nph

open Verif.Boundary Verif.Integrate

variable {ι : Type} [Fintype ι]

/-- Kinetic energy of the atoms. -/
noncomputable def kinetic (m : ι → ℝ) (v : ι → Vec) : ℝ := ∑ i, ∑ a, m i * v i a ^ 2 / 2

/-- Kinetic energy of the cell. -/
noncomputable def Mode.kinetic (mode : Mode) (W : ℝ) (η : Vec) : ℝ := ∑ a, mode.c W a * η a ^ 2 / 2

/-- Potential energy, kinetic energies, and pressure times volume. -/
noncomputable def enthalpy (mode : Mode) (W extP : ℝ) (m : ι → ℝ) (U : Vec → (ι → Vec) → ℝ)
    (z : Pt ι) : ℝ :=
  U (mode.len z.1.1) (place (mode.len z.1.1) z.2.1) +
    kinetic m (speed (mode.len z.1.1) z.2.2) + extP * vol (mode.len z.1.1) + mode.kinetic W z.1.2

/-- The stress `S` is that of the energy `U`: the energy of a system whose positions are
scaled with the cell changes accordingly. -/
def Virial (U : Vec → (ι → Vec) → ℝ) (S : Vec → (ι → Vec) → Vec) (L : Vec) (s : ι → Vec) : Prop :=
  HasFDerivAt (fun L' => U L' (place L' s))
    (∑ a, (-(vol L / L a * S L (place L s) a)) • (ContinuousLinearMap.proj (R := ℝ) (φ := fun _ : Fin 3 => ℝ) a)) L

theorem kinetic_deriv (m : ι → ℝ) (u : ι → Vec) {ℓ : ℝ → Vec} {ℓ' : Vec} {x : ℝ}
    (hd : ∀ a, HasDerivAt (fun y => ℓ y a) (ℓ' a) x) (hp : ∀ a, 0 < ℓ x a) :
    HasDerivAt (fun y => kinetic m (speed (ℓ y) u))
      (-∑ a, vol (ℓ x) / ℓ x a * kin m (ℓ x) (speed (ℓ x) u) a * ℓ' a) x := by
  have hv : vol (ℓ x) ≠ 0 := (mul_pos (mul_pos (hp 0) (hp 1)) (hp 2)).ne'
  have h1 : ∀ i a, HasDerivAt (fun y => m i * (u i a / ℓ y a) ^ 2 / 2)
      (-(m i * (u i a / ℓ x a) ^ 2 / ℓ x a * ℓ' a)) x := by
    intro i a
    have hne := (hp a).ne'
    have := ((((hasDerivAt_const x (u i a)).div (hd a) hne).pow 2).const_mul (m i)).div_const 2
    refine this.congr_deriv ?_
    push_cast
    simp only [Pi.div_apply]
    field_simp
    ring
  have h2 : HasDerivAt (fun y => kinetic m (speed (ℓ y) u))
      (∑ i, ∑ a, -(m i * (u i a / ℓ x a) ^ 2 / ℓ x a * ℓ' a)) x := by
    unfold kinetic speed
    refine HasDerivAt.fun_sum fun i _ => HasDerivAt.fun_sum fun a _ => h1 i a
  refine h2.congr_deriv ?_
  rw [Finset.sum_comm, ← Finset.sum_neg_distrib]
  refine Finset.sum_congr rfl fun a _ => ?_
  unfold kin speed
  rw [Finset.sum_neg_distrib]
  congr 1
  have hne := (hp a).ne'
  rw [show vol (ℓ x) / ℓ x a * ((∑ i, m i * (u i a / ℓ x a) ^ 2) / vol (ℓ x)) * ℓ' a =
    (∑ i, m i * (u i a / ℓ x a) ^ 2) * (ℓ' a / ℓ x a) by field_simp, Finset.sum_mul]
  refine Finset.sum_congr rfl fun i _ => ?_
  ring

theorem vol_deriv {ℓ : ℝ → Vec} {ℓ' : Vec} {x : ℝ}
    (hd : ∀ a, HasDerivAt (fun y => ℓ y a) (ℓ' a) x) (hp : ∀ a, 0 < ℓ x a) :
    HasDerivAt (fun y => vol (ℓ y)) (∑ a, vol (ℓ x) / ℓ x a * ℓ' a) x := by
  have := ((hd 0).mul (hd 1)).mul (hd 2)
  unfold vol
  refine this.congr_deriv ?_
  have h0 := (hp 0).ne'
  have h1 := (hp 1).ne'
  have h2 := (hp 2).ne'
  rw [Fin.sum_univ_three]
  simp only [Pi.mul_apply]
  field_simp

/-- The derivative along a path of cells, at constant scaled positions and velocities. -/
theorem enthalpy_path {U : Vec → (ι → Vec) → ℝ} {S : Vec → (ι → Vec) → Vec} (extP : ℝ)
    (m : ι → ℝ) (s u : ι → Vec) {ℓ : ℝ → Vec} {ℓ' : Vec} {x : ℝ}
    (hd : ∀ a, HasDerivAt (fun y => ℓ y a) (ℓ' a) x) (hp : ∀ a, 0 < ℓ x a)
    (hv : Virial U S (ℓ x) s) :
    HasDerivAt (fun y => U (ℓ y) (place (ℓ y) s) + kinetic m (speed (ℓ y) u) + extP * vol (ℓ y))
      (-∑ a, vol (ℓ x) / ℓ x a *
        (S (ℓ x) (place (ℓ x) s) a + kin m (ℓ x) (speed (ℓ x) u) a - extP) * ℓ' a) x := by
  have hℓ : HasDerivAt ℓ ℓ' x := hasDerivAt_pi.2 hd
  have h1 := hv.comp_hasDerivAt x hℓ
  have h2 := kinetic_deriv m u hd hp
  have h3 := (vol_deriv hd hp).const_mul extP
  refine ((h1.add h2).add h3).congr_deriv ?_
  simp only [sum_apply, smul_apply,
    ContinuousLinearMap.proj_apply, smul_eq_mul]
  rw [Finset.mul_sum, ← Finset.sum_neg_distrib, ← Finset.sum_neg_distrib, ← Finset.sum_add_distrib,
    ← Finset.sum_add_distrib]
  refine Finset.sum_congr rfl fun a _ => ?_
  ring

/-- Changing one coordinate of the cell. -/
theorem len_deriv (mode : Mode) {q : Vec} (h : mode.Pos q) (b : Fin 3) :
    ∃ ℓ' : Vec, (∀ a, HasDerivAt (fun x => mode.len (Function.update q b x) a) (ℓ' a) (q b)) ∧
      ∀ p, ∑ a, vol (mode.len q) / mode.len q a * p a * ℓ' a = mode.force (mode.len q) p b := by
  cases mode with
  | orthorhombic =>
    refine ⟨Pi.single b 1, fun a => ?_, fun p => ?_⟩
    · simp only [Mode.len]
      by_cases hab : a = b
      · subst hab
        simpa using hasDerivAt_id' (q a)
      · simpa [hab] using hasDerivAt_const (q b) (q a)
    · simp [Mode.force, Mode.len, Pi.single_apply]
  | tetragonal =>
    refine ⟨![if b = 0 then 1 else 0, if b = 1 then 1 else 0, if b = 1 then 1 else 0],
      fun a => ?_, fun p => ?_⟩
    · fin_cases b <;> fin_cases a <;> simp [Mode.len] <;>
        first | exact hasDerivAt_id _ | exact hasDerivAt_const _ _
    · fin_cases b <;> simp [Mode.force, Mode.len, Fin.sum_univ_three]
      ring
  | cubic =>
    have h0 : 0 < q 0 := h
    have hpow : HasDerivAt (fun x : ℝ => x ^ (1 / 3 : ℝ)) (1 / 3 * q 0 ^ ((1 / 3 : ℝ) - 1)) (q 0) :=
      Real.hasDerivAt_rpow_const (Or.inl h0.ne')
    refine ⟨fun _ => if b = 0 then 1 / 3 * q 0 ^ ((1 / 3 : ℝ) - 1) else 0, fun a => ?_, fun p => ?_⟩
    · by_cases hb : b = 0
      · subst hb
        simpa [Mode.len] using hpow
      · have : (fun x => Mode.cubic.len (Function.update q b x) a) = fun _ => q 0 ^ (1 / 3 : ℝ) := by
          funext x
          simp [Mode.len, Function.update_of_ne (Ne.symm hb)]
        rw [this]
        simpa [hb] using hasDerivAt_const (q b) (q 0 ^ (1 / 3 : ℝ))
    · by_cases hb : b = 0
      · subst hb
        rw [vol_len_cubic h0]
        have hx : q 0 ^ ((1 / 3 : ℝ) - 1) = q 0 ^ (1 / 3 : ℝ) / q 0 := Real.rpow_sub_one h0.ne' _
        have hne : q 0 ^ (1 / 3 : ℝ) ≠ 0 := (Real.rpow_pos_of_pos h0 _).ne'
        simp only [Mode.len, Mode.force, Fin.sum_univ_three, if_true, Matrix.cons_val_zero]
        rw [hx]
        field_simp
      · have : Mode.cubic.force (Mode.cubic.len q) p b = 0 := by
          fin_cases b <;> first | exact absurd rfl hb | simp [Mode.force]
        rw [this]
        simp [hb]

/-- The force on a coordinate of the cell is minus the derivative of the enthalpy. -/
theorem enthalpy_cell {U : Vec → (ι → Vec) → ℝ} {S : Vec → (ι → Vec) → Vec} (mode : Mode)
    (W extP : ℝ) (m : ι → ℝ) (F : Vec → (ι → Vec) → ι → Vec) (z : Pt ι) (hp : mode.Pos z.1.1)
    (hv : Virial U S (mode.len z.1.1) z.2.1) (b : Fin 3) :
    HasDerivAt (fun x => enthalpy mode W extP m U ((Function.update z.1.1 b x, z.1.2), z.2))
      (-(dyn mode W extP m F S).G (mode.len z.1.1) (place (mode.len z.1.1) z.2.1)
        (speed (mode.len z.1.1) z.2.2) b) (z.1.1 b) := by
  obtain ⟨ℓ', hd, hf⟩ := len_deriv mode hp b
  have hb : Function.update z.1.1 b (z.1.1 b) = z.1.1 := Function.update_eq_self _ _
  have := enthalpy_path (U := U) (S := S) extP m z.2.1 z.2.2 hd
    (by rw [hb]; exact Mode.len_pos hp) (by rw [hb]; exact hv)
  rw [hb, hf] at this
  exact this.add_const (mode.kinetic W z.1.2)

/-- The velocity of a coordinate of the cell is the derivative with respect to its momentum. -/
theorem enthalpy_momentum (U : Vec → (ι → Vec) → ℝ) (mode : Mode)
    (W extP : ℝ) (m : ι → ℝ) (z : Pt ι) (b : Fin 3) :
    HasDerivAt (fun x => enthalpy mode W extP m U ((z.1.1, Function.update z.1.2 b x), z.2))
      (mode.c W b * z.1.2 b) (z.1.2 b) := by
  have h : HasDerivAt (fun x => mode.kinetic W (Function.update z.1.2 b x))
      (∑ a, if a = b then mode.c W b * z.1.2 b else 0) (z.1.2 b) := by
    unfold Mode.kinetic
    refine HasDerivAt.fun_sum fun a _ => ?_
    by_cases hab : a = b
    · subst hab
      simp only [Function.update_self, if_true]
      refine ((((hasDerivAt_id (z.1.2 a)).pow 2).const_mul (mode.c W a)).div_const 2).congr_deriv ?_
      simp
      ring
    · simp only [Function.update_of_ne hab, hab, if_false]
      exact hasDerivAt_const _ _
  simp only [Finset.sum_ite_eq', Finset.mem_univ, if_true] at h
  exact h.const_add (U (mode.len z.1.1) (place (mode.len z.1.1) z.2.1) +
    kinetic m (speed (mode.len z.1.1) z.2.2) + extP * vol (mode.len z.1.1))

/-- Changing one coordinate of one atom. -/
def put [DecidableEq ι] (s : ι → Vec) (i : ι) (a : Fin 3) (x : ℝ) : ι → Vec :=
  Function.update s i (Function.update (s i) a x)

/-- The force on an atom in scaled coordinates. -/
theorem enthalpy_atom [DecidableEq ι] (U : Vec → (ι → Vec) → ℝ) (mode : Mode)
    (W extP : ℝ) (m : ι → ℝ) (F : Vec → (ι → Vec) → ι → Vec) (z : Pt ι) (i : ι) (a : Fin 3)
    (hF : HasDerivAt (fun x => U (mode.len z.1.1) (put (place (mode.len z.1.1) z.2.1) i a x))
      (-F (mode.len z.1.1) (place (mode.len z.1.1) z.2.1) i a)
      (place (mode.len z.1.1) z.2.1 i a)) :
    HasDerivAt (fun x => enthalpy mode W extP m U (z.1, (put z.2.1 i a x, z.2.2)))
      (-(mode.len z.1.1 a * F (mode.len z.1.1) (place (mode.len z.1.1) z.2.1) i a))
      (z.2.1 i a) := by
  set L := mode.len z.1.1 with hL
  have hp : ∀ x, place L (put z.2.1 i a x) = put (place L z.2.1) i a (L a * x) := by
    intro x
    funext j b
    unfold put place
    by_cases hj : j = i
    · subst hj
      by_cases hb : b = a
      · subst hb; simp
      · simp [hb]
    · simp [hj]
  have h1 : HasDerivAt (fun x : ℝ => L a * x) (L a) (z.2.1 i a) := by
    simpa using (hasDerivAt_id' (z.2.1 i a)).const_mul (L a)
  have h2 := HasDerivAt.comp (z.2.1 i a) hF h1
  have h3 : HasDerivAt (fun x => U L (place L (put z.2.1 i a x)))
      (-(L a * F L (place L z.2.1) i a)) (z.2.1 i a) := by
    simp only [hp]
    refine h2.congr_deriv ?_
    ring
  exact ((h3.add_const (kinetic m (speed L z.2.2))).add_const (extP * vol L)).add_const
    (mode.kinetic W z.1.2)

/-- The scaled velocity times the mass is the derivative with respect to the velocity. -/
theorem enthalpy_velocity [DecidableEq ι] (U : Vec → (ι → Vec) → ℝ) (mode : Mode)
    (W extP : ℝ) (m : ι → ℝ) (z : Pt ι) (i : ι) (a : Fin 3) :
    HasDerivAt (fun x => enthalpy mode W extP m U (z.1, (z.2.1, put z.2.2 i a x)))
      (m i * (z.2.2 i a / (mode.len z.1.1 a * mode.len z.1.1 a))) (z.2.2 i a) := by
  set L := mode.len z.1.1 with hL
  have h : HasDerivAt (fun x => kinetic m (speed L (put z.2.2 i a x)))
      (∑ j, ∑ b, if j = i then if b = a then m i * (z.2.2 i a / (L a * L a)) else 0 else 0)
      (z.2.2 i a) := by
    unfold kinetic speed
    refine HasDerivAt.fun_sum fun j _ => HasDerivAt.fun_sum fun b _ => ?_
    by_cases hj : j = i
    · subst hj
      by_cases hb : b = a
      · subst hb
        simp only [put, Function.update_self, if_true]
        refine (((((hasDerivAt_id' (z.2.2 j b)).div_const (L b)).pow 2).const_mul
          (m j)).div_const 2).congr_deriv ?_
        simp
        ring
      · simp only [put, Function.update_self, Function.update_of_ne hb, hb, if_false, if_true]
        exact hasDerivAt_const _ _
    · simp only [put, Function.update_of_ne hj, hj, if_false]
      exact hasDerivAt_const _ _
  have e : (∑ j, ∑ b, if j = i then if b = a then m i * (z.2.2 i a / (L a * L a)) else 0 else 0) =
      m i * (z.2.2 i a / (L a * L a)) := by
    rw [Finset.sum_eq_single i (fun j _ hj => by simp [hj]) (by simp)]
    simp
  rw [e] at h
  exact ((h.const_add (U L (place L z.2.1))).add_const (extP * vol L)).add_const
    (mode.kinetic W z.1.2)

/-- Kinetic energy of the cell as computed by the integrator. -/
theorem barostatEnergy_eq (g : Nph) : g.barostatEnergy = g.mode.kinetic g.W g.eta := by
  have h2 : (2.0 : ℝ) = 2 := by norm_num
  unfold Nph.barostatEnergy Mode.kinetic
  rw [h2, Fin.sum_univ_three]
  cases g.mode with
  | orthorhombic => simp only [Mode.c]; ring
  | tetragonal =>
    simp only [Mode.c, Matrix.cons_val_zero, Matrix.cons_val_one, Matrix.cons_val]
    rw [one_div, one_div, mul_inv]
    ring
  | cubic =>
    simp only [Mode.c, Matrix.cons_val_zero, Matrix.cons_val_one, Matrix.cons_val]
    ring

end Verif.Nph
