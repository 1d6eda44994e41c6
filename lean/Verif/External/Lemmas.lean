/-
Derivatives of the energies of external fields.
-/
import Verif.External.Model
import Mathlib.Analysis.SpecialFunctions.Trigonometric.Deriv
import Mathlib.Analysis.SpecialFunctions.Trigonometric.DerivHyp
import Mathlib.Analysis.SpecialFunctions.Sqrt
import Mathlib.Analysis.Calculus.Deriv.Inv
import Mathlib.Analysis.Calculus.FDeriv.Add
import Mathlib.Analysis.Calculus.FDeriv.Pi
import Mathlib.Algebra.Order.Floor.Ring
import Mathlib.Tactic.Linarith
import Mathlib.Tactic.FieldSimp
import Mathlib.Tactic.Positivity

set_option autoImplicit false

namespace Verif.External

open Verif.Boundary Verif.Cpp Verif.Cpp.Out

/-- The linear form `v ↦ F · v`. -/
noncomputable def lin (F : Vec) : Vec →L[ℝ] ℝ :=
  ∑ i : Fin 3, F i • ContinuousLinearMap.proj (R := ℝ) (φ := fun _ : Fin 3 => ℝ) i

/-- `F` is minus the gradient of `U` at `r`. -/
def IsForce (U : Vec → ℝ) (F r : Vec) : Prop := HasFDerivAt U (-(lin F)) r

theorem lin_apply (F v : Vec) : lin F v = F 0 * v 0 + F 1 * v 1 + F 2 * v 2 := by
  unfold lin
  simp [Fin.sum_univ_three]

theorem lin_injective {F G : Vec} (h : lin F = lin G) : F = G := by
  funext i
  have key : ∀ H : Vec, lin H (Pi.single i 1) = H i := by
    intro H
    rw [lin_apply]
    fin_cases i <;> simp
  rw [← key F, ← key G, h]

theorem IsForce.unique {U : Vec → ℝ} {F G r : Vec} (h1 : IsForce U F r) (h2 : IsForce U G r) :
    F = G := by
  have := HasFDerivAt.unique h1 h2
  exact lin_injective (neg_injective this)

theorem IsForce.congr {U V : Vec → ℝ} {F r : Vec} (h : IsForce U F r)
    (e : ∀ᶠ x in nhds r, V x = U x) : IsForce V F r :=
  HasFDerivAt.congr_of_eventuallyEq h e

/-- A function of the coordinates. -/
theorem isForce_of_hasFDerivAt {U : Vec → ℝ} {U' : Vec →L[ℝ] ℝ} {F r : Vec}
    (h : HasFDerivAt U U' r) (e : ∀ v, U' v = -(F 0 * v 0 + F 1 * v 1 + F 2 * v 2)) :
    IsForce U F r := by
  have : U' = -(lin F) := by
    ext v
    rw [e, _root_.neg_apply, lin_apply]
  rw [this] at h
  exact h

theorem hasFDerivAt_coord (i : Fin 3) (r : Vec) :
    HasFDerivAt (fun x : Vec => x i)
      (ContinuousLinearMap.proj (R := ℝ) (φ := fun _ : Fin 3 => ℝ) i) r :=
  (ContinuousLinearMap.proj (R := ℝ) (φ := fun _ : Fin 3 => ℝ) i).hasFDerivAt

/-- Energies that are sums over the directions. -/
theorem isForce_sum {g : Fin 3 → ℝ → ℝ} {F r : Vec} (h : ∀ i, HasDerivAt (g i) (-(F i)) (r i)) :
    IsForce (fun x => ∑ i, g i (x i)) F r := by
  have : HasFDerivAt (fun x : Vec => ∑ i, g i (x i))
      (∑ i, (-(F i)) • ContinuousLinearMap.proj (R := ℝ) (φ := fun _ : Fin 3 => ℝ) i) r := by
    refine HasFDerivAt.fun_sum fun i _ => ?_
    exact (h i).comp_hasFDerivAt r (hasFDerivAt_coord i r)
  refine isForce_of_hasFDerivAt this fun v => ?_
  simp [Fin.sum_univ_three]
  ring

theorem hasFDerivAt_vdot (q : Vec) (r : Vec) : HasFDerivAt (fun x => vdot q x) (lin q) r := by
  have : (fun x => vdot q x) = lin q := by
    funext x
    rw [lin_apply]
    rfl
  rw [this]
  exact (lin q).hasFDerivAt

theorem hasDerivAt_tanh (x : ℝ) : HasDerivAt Real.tanh (1 - Real.tanh x ^ 2) x := by
  have hc : Real.cosh x ≠ 0 := (Real.cosh_pos x).ne'
  have h := (Real.hasDerivAt_sinh x).fun_div (Real.hasDerivAt_cosh x) hc
  have e : Real.tanh = fun y => Real.sinh y / Real.cosh y := by
    funext y
    exact Real.tanh_eq_sinh_div_cosh y
  rw [e]
  refine h.congr_deriv ?_
  field_simp

/-! ### Waves -/

/-- A term of the sum over waves: prefactor, wave vector and phase. -/
structure Term where
  p : ℝ
  q : Vec
  b : ℝ

/-- The argument of the cosine. -/
def Term.arg (w : Term) (r : Vec) : ℝ := vdot w.q r + w.b

/-- Sum of cosines. -/
noncomputable def cosSum (ws : List Term) (r : Vec) : ℝ :=
  (ws.map fun w => w.p * Real.cos (w.arg r)).sum

/-- Its gradient. -/
noncomputable def cosGrad (ws : List Term) (r : Vec) : Vec :=
  fun i => (ws.map fun w => w.q i * (w.p * -Real.sin (w.arg r))).sum

theorem hasFDerivAt_cosSum (ws : List Term) (r : Vec) :
    HasFDerivAt (cosSum ws) (lin (cosGrad ws r)) r := by
  induction ws with
  | nil =>
    have : lin (cosGrad [] r) = 0 := by
      ext v
      rw [lin_apply]
      simp [cosGrad]
    rw [this]
    exact hasFDerivAt_const (0 : ℝ) r
  | cons w ws ih =>
    have h1 : HasFDerivAt (fun x => w.p * Real.cos (w.arg x))
        (w.p • ((-Real.sin (w.arg r)) • lin w.q)) r := by
      refine HasFDerivAt.const_mul ?_ w.p
      refine (Real.hasDerivAt_cos (w.arg r)).comp_hasFDerivAt r ?_
      exact (hasFDerivAt_vdot w.q r).add_const w.b
    have h2 := h1.add ih
    have e : cosSum (w :: ws) = fun x => w.p * Real.cos (w.arg x) + cosSum ws x := by
      funext x
      simp [cosSum]
    rw [e]
    refine h2.congr_fderiv ?_
    ext v
    simp only [_root_.add_apply, _root_.smul_apply, lin_apply, cosGrad,
      List.map_cons, List.sum_cons, smul_eq_mul]
    ring

theorem isForce_wave (A C clip : ℝ) (ws : List Term) (r : Vec) :
    IsForce (fun x => A * Real.tanh (C + cosSum ws x * clip))
      (fun i => cosGrad ws r i * clip * (-1 * (A * (1 - Real.tanh (C + cosSum ws r * clip) ^ 2)))) r := by
  have h1 : HasFDerivAt (fun x => C + cosSum ws x * clip) (clip • lin (cosGrad ws r)) r :=
    ((hasFDerivAt_cosSum ws r).mul_const clip).const_add C
  have h2 := ((hasDerivAt_tanh (C + cosSum ws r * clip)).comp_hasFDerivAt r h1).const_mul A
  refine isForce_of_hasFDerivAt h2 fun v => ?_
  simp only [_root_.smul_apply, lin_apply, smul_eq_mul]
  ring

theorem foldl_add {α : Type} (l : List α) (f : α → ℝ) (a : ℝ) :
    l.foldl (fun c w => c + f w) a = a + (l.map f).sum := by
  induction l generalizing a with
  | nil => simp
  | cons w l ih => simp [ih, add_assoc]

theorem foldl_pair {α : Type} (l : List α) (f : α → ℝ) (g : α → Vec) (a : ℝ) (d : Vec) :
    l.foldl (fun (cd : ℝ × Vec) w => (cd.1 + f w, fun i => cd.2 i + g w i)) (a, d) =
      (a + (l.map f).sum, fun i => d i + (l.map fun w => g w i).sum) := by
  induction l generalizing a d with
  | nil => simp
  | cons w l ih => simp [ih, add_assoc]

theorem cosSum_periodic {ws : List Term} {u : Vec}
    (h : ∀ w ∈ ws, ∃ m : ℤ, vdot w.q u = m * (2 * Real.pi)) (r : Vec) :
    cosSum ws (fun i => r i + u i) = cosSum ws r ∧
      cosGrad ws (fun i => r i + u i) = cosGrad ws r := by
  have e : ∀ w ∈ ws, ∃ m : ℤ, w.arg (fun i => r i + u i) = w.arg r + m * (2 * Real.pi) := by
    intro w hw
    obtain ⟨m, hm⟩ := h w hw
    refine ⟨m, ?_⟩
    rw [← hm]
    unfold Term.arg vdot
    ring
  constructor
  · unfold cosSum
    congr 1
    refine List.map_congr_left fun w hw => ?_
    obtain ⟨m, hm⟩ := e w hw
    rw [hm, Real.cos_add_int_mul_two_pi]
  · funext i
    unfold cosGrad
    congr 1
    refine List.map_congr_left fun w hw => ?_
    obtain ⟨m, hm⟩ := e w hw
    rw [hm, Real.sin_add_int_mul_two_pi]

/-- Wave vectors of the cell: the scalar product with a lattice vector is a multiple
of `2π`. -/
theorem waveQ_lattice {L : Vec} (hL : ∀ i, L i ≠ 0) {p : ℤ} {w : Vec}
    (hw : ∀ i, ∃ m : ℤ, p * w i = m) (n : IVec) :
    ∃ m : ℤ, vdot (waveQ p L w) (fun i => n i * L i) = m * (2 * Real.pi) := by
  choose m hm using hw
  refine ⟨m 0 * n 0 + m 1 * n 1 + m 2 * n 2, ?_⟩
  have h0 := hL 0
  have h1 := hL 1
  have h2 := hL 2
  have e : ∀ i, 2.0 * Real.pi * p * w i / L i * (n i * L i) = m i * n i * (2 * Real.pi) := by
    intro i
    have := hL i
    rw [← hm i]
    field_simp
    norm_num
    ring
  unfold vdot waveQ
  have e0 := e 0
  have e1 := e 1
  have e2 := e 2
  simp only [Matrix.cons_val_zero, Matrix.cons_val_one, Matrix.cons_val]
  rw [e0, e1, e2]
  push_cast
  ring

/-- The terms of the three classes. -/
noncomputable def Simple.terms (s : Simple) (L : Vec) : List Term :=
  s.waves.map fun w => ⟨1, waveQ s.periodicity L fun i => (w i : ℝ), 0⟩

noncomputable def Periodic.terms (s : Periodic) (L : Vec) : List Term :=
  s.waves.map fun w =>
    ⟨1, waveQ s.periodicity L w.1, w.2 - vdot (waveQ s.periodicity L w.1) s.shift⟩

noncomputable def General.terms (s : General) (L : Vec) (type : ℤ) : List Term :=
  s.waves.map fun w => ⟨w.prefactor type, waveQ s.periodicity L w.vector,
    w.phase - vdot (waveQ s.periodicity L w.vector) w.shift⟩

noncomputable def clip (periodicity : ℤ) (width : ℝ) : ℝ := 1.0 / (2.0 * Real.pi * periodicity * width)

theorem vdot_sub (q r u : Vec) : vdot q (fun i => r i - u i) = vdot q r - vdot q u := by
  unfold vdot
  ring

theorem lit1 : (1.0 : ℝ) = 1 := by norm_num

theorem Simple.energy_eq (s : Simple) (L r : Vec) (type : ℤ) :
    s.energy L r type = s.prefactor type * s.externalParameter *
      Real.tanh (0 + cosSum (s.terms L) r * clip s.periodicity s.interfaceWidth) := by
  unfold Simple.energy clip
  simp only [foldl_add, cosSum, Simple.terms, List.map_map]
  congr 3
  rw [zero_add, zero_add]
  congr 3
  funext w
  simp [Term.arg]

theorem Simple.force_eq (s : Simple) (L r : Vec) (type : ℤ) :
    s.force L r type = fun i => cosGrad (s.terms L) r i * clip s.periodicity s.interfaceWidth *
      (-1 * (s.prefactor type * s.externalParameter * (1 - Real.tanh (0 + cosSum (s.terms L) r *
        clip s.periodicity s.interfaceWidth) ^ 2))) := by
  funext i
  unfold Simple.force clip
  simp only [foldl_pair s.waves, cosSum, cosGrad, Simple.terms, List.map_map]
  simp only [Function.comp_def, Term.arg, add_zero, zero_add, one_mul]
  rw [lit1]
  simp only [neg_mul, one_mul]
  generalize (2.0 : ℝ) = two
  ring

theorem Periodic.arg_eq (s : Periodic) (L r : Vec) (w : Vec × ℝ) :
    vdot (waveQ s.periodicity L w.1) (fun i => r i - s.shift i) + w.2 =
      vdot (waveQ s.periodicity L w.1) r + (w.2 - vdot (waveQ s.periodicity L w.1) s.shift) := by
  rw [vdot_sub]
  ring

theorem Periodic.energy_eq (s : Periodic) (L r : Vec) (type : ℤ) :
    s.energy L r type = s.prefactor type * s.externalParameter *
      Real.tanh (s.C + cosSum (s.terms L) r * clip s.periodicity s.interfaceWidth) := by
  unfold Periodic.energy clip
  simp only [foldl_add, cosSum, Periodic.terms, List.map_map, Function.comp_def, Term.arg,
    zero_add, one_mul, Periodic.arg_eq]

theorem Periodic.force_eq (s : Periodic) (L r : Vec) (type : ℤ) :
    s.force L r type = fun i => cosGrad (s.terms L) r i * clip s.periodicity s.interfaceWidth *
      (-1 * (s.prefactor type * s.externalParameter * (1 - Real.tanh (s.C + cosSum (s.terms L) r *
        clip s.periodicity s.interfaceWidth) ^ 2))) := by
  funext i
  unfold Periodic.force clip
  simp only [foldl_pair s.waves, cosSum, cosGrad, Periodic.terms, List.map_map]
  simp only [Function.comp_def, Term.arg, Periodic.arg_eq, zero_add, one_mul]
  rw [lit1]
  simp only [neg_mul, one_mul]
  generalize (2.0 : ℝ) = two
  ring

theorem General.arg_eq (s : General) (L r : Vec) (w : GWave) :
    vdot (waveQ s.periodicity L w.vector) (fun i => r i - w.shift i) + w.phase =
      vdot (waveQ s.periodicity L w.vector) r +
        (w.phase - vdot (waveQ s.periodicity L w.vector) w.shift) := by
  rw [vdot_sub]
  ring

theorem General.energy_eq (s : General) (L r : Vec) (type : ℤ) :
    s.energy L r type = s.externalParameter *
      Real.tanh (0 + cosSum (s.terms L type) r * clip s.periodicity s.interfaceWidth) := by
  unfold General.energy clip
  simp only [foldl_add, cosSum, General.terms, List.map_map, Function.comp_def, Term.arg,
    zero_add, General.arg_eq]

theorem General.force_eq (s : General) (L r : Vec) (type : ℤ) :
    s.force L r type = fun i => cosGrad (s.terms L type) r i *
      clip s.periodicity s.interfaceWidth * (-1 * (s.externalParameter *
        (1 - Real.tanh (0 + cosSum (s.terms L type) r *
          clip s.periodicity s.interfaceWidth) ^ 2))) := by
  funext i
  unfold General.force clip
  simp only [foldl_pair s.waves, cosSum, cosGrad, General.terms, List.map_map]
  simp only [Function.comp_def, Term.arg, General.arg_eq, zero_add]
  rw [lit1]
  simp only [neg_mul, one_mul]
  generalize (2.0 : ℝ) = two
  ring

/-! ### Walls -/

/-- Distance to the nearer of two walls at `0` and `len`. -/
noncomputable def wallDist (len x : ℝ) : ℝ := min x (len - x)

theorem wallDist_of_gt {len x : ℝ} (h : x > len * 0.5) :
    len * 0.5 + len * 0.5 - x = wallDist len x := by
  unfold wallDist
  rw [min_eq_right (by norm_num at h; linarith)]
  norm_num
  ring

theorem wallDist_of_le {len x : ℝ} (h : ¬ x > len * 0.5) : x = wallDist len x := by
  unfold wallDist
  rw [min_eq_left (by norm_num at h; linarith)]

theorem Wall.energyAt_eq (s : Wall) (len x : ℝ) : s.energyAt len x = s.energy1 (wallDist len x) := by
  unfold Wall.energyAt
  dsimp only
  split
  · rw [wallDist_of_gt (by assumption)]
  · rw [← wallDist_of_le (by assumption)]

theorem Wall.forceAt_eq (s : Wall) (len x : ℝ) :
    s.forceAt len x = (if x > len / 2 then -1 else 1) * s.force1 (wallDist len x) := by
  have e : len * 0.5 = len / 2 := by norm_num; ring
  unfold Wall.forceAt
  dsimp only
  rw [e]
  split
  · rename_i h
    have := wallDist_of_gt (len := len) (x := x) (by rw [e]; exact h)
    rw [e] at this
    rw [this]
    ring
  · rename_i h
    rw [← wallDist_of_le (len := len) (x := x) (by rw [e]; exact h)]
    ring

theorem wallDist_deriv {len x : ℝ} (h : x ≠ len / 2) :
    HasDerivAt (wallDist len) (if x > len / 2 then -1 else 1) x := by
  rcases lt_or_gt_of_ne h with h | h
  · rw [if_neg (by linarith)]
    refine (hasDerivAt_id x).congr_of_eventuallyEq ?_
    filter_upwards [gt_mem_nhds h] with y hy
    exact min_eq_left (by linarith)
  · rw [if_pos h]
    refine ((hasDerivAt_id x).const_sub len).congr_of_eventuallyEq ?_
    filter_upwards [lt_mem_nhds h] with y hy
    exact min_eq_right (by linarith)

theorem wallDist_continuous (len : ℝ) : Continuous (wallDist len) :=
  continuous_id.min (continuous_const.sub continuous_id)

/-- The energy between the cap and the cutoff. -/
theorem Wall.energy1_deriv {s : Wall} {d : ℝ} (hs : 0 < s.sigmaCb) (h1 : d < s.cutoff)
    (h2 : 0.129615 * s.sigmaCb < d * d * d) : HasDerivAt s.energy1 (-(s.force1 d)) d := by
  have hd3 : 0 < d * d * d := lt_of_le_of_lt (by positivity) h2
  have hd : 0 < d := by
    by_contra h
    push Not at h
    have : d * d * d ≤ 0 := by nlinarith [mul_self_nonneg d]
    linarith
  have e : s.force1 d = s.coeff * (9.0 * (s.sigmaCb / (d * d * d)) * (s.sigmaCb / (d * d * d)) - 22.5) *
      (s.sigmaCb / (d * d * d)) / d := by
    unfold Wall.force1
    dsimp only
    rw [if_pos h1, if_neg (not_lt.2 h2.le)]
  have h3 : HasDerivAt (fun y : ℝ => s.sigmaCb / (y * y * y)) (-(3 * s.sigmaCb / d ^ 4)) d := by
    have hy : HasDerivAt (fun y : ℝ => y * y * y) (3 * d ^ 2) d := by
      have := ((hasDerivAt_id d).fun_mul (hasDerivAt_id d)).fun_mul (hasDerivAt_id d)
      refine this.congr_deriv ?_
      simp only [id]
      ring
    refine ((hasDerivAt_const d s.sigmaCb).fun_div hy hd3.ne').congr_deriv ?_
    field_simp
    ring
  have h4 : HasDerivAt (fun y : ℝ => s.coeff * ((s.sigmaCb / (y * y * y)) *
      ((s.sigmaCb / (y * y * y)) * (s.sigmaCb / (y * y * y)) - 7.5) + 7.905694))
      (-(s.force1 d)) d := by
    have := ((h3.fun_mul ((h3.fun_mul h3).sub_const 7.5)).add_const 7.905694).const_mul s.coeff
    refine this.congr_deriv ?_
    rw [e]
    field_simp
    norm_num
    ring
  refine h4.congr_of_eventuallyEq ?_
  have hc : ContinuousAt (fun y : ℝ => y * y * y) d := by fun_prop
  filter_upwards [gt_mem_nhds h1, hc.eventually (lt_mem_nhds h2)] with y hy1 hy2
  unfold Wall.energy1
  dsimp only
  rw [if_pos hy1, if_neg (not_lt.2 hy2.le)]

/-- Beyond the cutoff. -/
theorem Wall.energy1_far {s : Wall} {d : ℝ} (h : s.cutoff < d) :
    s.force1 d = 0 ∧ ∀ᶠ y in nhds d, s.energy1 y = 0 := by
  refine ⟨if_neg (by linarith), ?_⟩
  filter_upwards [lt_mem_nhds h] with y hy
  exact if_neg (by linarith)

/-- Inside the cap the energy is constant. -/
theorem Wall.energy1_cap {s : Wall} {d : ℝ} (h1 : d < s.cutoff)
    (h2 : d * d * d < 0.129615 * s.sigmaCb) : ∃ e, ∀ᶠ y in nhds d, s.energy1 y = e := by
  refine ⟨s.energy1 d, ?_⟩
  have hc : ContinuousAt (fun y : ℝ => y * y * y) d := by fun_prop
  filter_upwards [gt_mem_nhds h1, hc.eventually (gt_mem_nhds h2)] with y hy1 hy2
  unfold Wall.energy1
  dsimp only
  rw [if_pos hy1, if_pos hy2, if_pos h1, if_pos h2]

/-- The force inside the cap is not zero; its sign is that of the distance. -/
theorem Wall.force1_cap {s : Wall} {d : ℝ} (hs : 0 < s.sigmaCb) (h1 : d < s.cutoff)
    (h2 : d * d * d < 0.129615 * s.sigmaCb) : ∃ c > 0, s.force1 d = c * s.coeff / d := by
  have e : s.sigmaCb / (0.129615 * s.sigmaCb) = 1 / 0.129615 := by
    field_simp
  refine ⟨(9.0 * (1 / 0.129615) * (1 / 0.129615) - 22.5) * (1 / 0.129615), by norm_num, ?_⟩
  unfold Wall.force1
  dsimp only
  rw [if_pos h1, if_pos h2, e]
  generalize (1 / 0.129615 : ℝ) = t
  generalize (9.0 : ℝ) = u
  generalize (22.5 : ℝ) = v
  ring

/-- Where the energy of a wall is smooth: beyond the cutoff, or between the cap and the
cutoff but not at equal distance from both walls. -/
def Wall.Smooth (s : Wall) (len x : ℝ) : Prop :=
  s.cutoff < wallDist len x ∨
    (x ≠ len / 2 ∧ wallDist len x < s.cutoff ∧ 0.129615 * s.sigmaCb < wallDist len x ^ 3)

theorem Wall.energyAt_deriv {s : Wall} (hs : 0 < s.sigmaCb) {len x : ℝ} (h : s.Smooth len x) :
    HasDerivAt (s.energyAt len) (-(s.forceAt len x)) x := by
  have e : s.energyAt len = fun y => s.energy1 (wallDist len y) := by
    funext y
    exact s.energyAt_eq len y
  rw [e, Wall.forceAt_eq]
  rcases h with h | ⟨h1, h2, h3⟩
  · obtain ⟨h4, h5⟩ := Wall.energy1_far h
    rw [h4, mul_zero, neg_zero]
    refine (hasDerivAt_const x (0 : ℝ)).congr_of_eventuallyEq ?_
    exact (wallDist_continuous len).continuousAt.eventually h5
  · have := (Wall.energy1_deriv hs h2 (by rw [pow_three'] at h3; exact h3)).comp x (wallDist_deriv h1)
    refine this.congr_deriv ?_
    ring

theorem Wall.energyAt_cap {s : Wall} {len x : ℝ} (h1 : wallDist len x < s.cutoff)
    (h2 : wallDist len x ^ 3 < 0.129615 * s.sigmaCb) : HasDerivAt (s.energyAt len) 0 x := by
  have e : s.energyAt len = fun y => s.energy1 (wallDist len y) := by
    funext y
    exact s.energyAt_eq len y
  rw [e]
  obtain ⟨c, h⟩ := Wall.energy1_cap h1 (by rw [pow_three'] at h2; exact h2)
  refine (hasDerivAt_const x c).congr_of_eventuallyEq ?_
  exact (wallDist_continuous len).continuousAt.eventually h

end Verif.External
