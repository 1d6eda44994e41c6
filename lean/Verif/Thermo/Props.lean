/-
Property C65: Langevin dynamics samples velocities at the temperature of the ensemble.
-/
import Verif.Thermo.Moments
import Mathlib.Probability.HasLawExists

set_option autoImplicit false
set_option linter.unusedSectionVars false

namespace Verif.Thermo

open Verif.Boundary Verif.Integrate MeasureTheory ProbabilityTheory Filter

variable {ι : Type} [DecidableEq ι] {P : Type} {w : World ι P}
variable {Ω : Type} [MeasurableSpace Ω] {μ : Measure Ω} {U : Ω → ℕ → ι → Vec}

/-- A system of atoms on which no forces act, and an integrator with a positive time
step and nonnegative friction. -/
structure Free (w : World ι P) (T : ℝ) (g : Lang) : Prop where
  complete : w.Complete
  types : ∀ i, w.typ i < w.nType
  mass : ∀ i, 0 < w.mass (w.typ i)
  forces : ∀ l p i, w.forces l p i = 0
  temperature : 0 ≤ T
  dt : 0 < g.dt
  gamma : 0 ≤ g.gamma

/-- The squares of the random changes balance the friction. -/
theorem kick_square {T : ℝ} {g : Lang} (h : Free w T g) (i : ι) :
    kickSize w T g.dt g.gamma i * kickSize w T g.dt g.gamma i * (1 / 12) =
      (1 - Real.exp (-g.dt * g.gamma) * Real.exp (-g.dt * g.gamma)) *
        (2 / (1 + Real.exp (-g.dt * g.gamma)) * (T / w.mass (w.typ i))) := by
  have he := Real.exp_pos (-g.dt * g.gamma)
  have he1 : Real.exp (-g.dt * g.gamma) ≤ 1 := by
    rw [Real.exp_le_one_iff]
    nlinarith [h.dt, h.gamma]
  have hm := h.mass i
  have hd := h.dt
  have e2 : Real.exp (-2 * g.dt * g.gamma) = Real.exp (-g.dt * g.gamma) * Real.exp (-g.dt * g.gamma) := by
    rw [← Real.exp_add]; congr 1; ring
  unfold kickSize
  rw [e2]
  generalize Real.exp (-g.dt * g.gamma) = e at *
  have hn : 0 ≤ w.mass (w.typ i) * (12 * T * (2 / (1 + e)) * (1 - e * e) / (g.dt * g.dt)) := by
    have : 0 ≤ 1 - e * e := by nlinarith
    have := h.temperature
    positivity
  rw [mul_mul_mul_comm, Real.mul_self_sqrt hn]
  field_simp

/-- C65: the mean velocity of an atom decays exponentially. -/
theorem C65_mean [IsProbabilityMeasure μ] (hU : Uniforms μ U) {T : ℝ} {g : Lang} (h : Free w T g)
    (shifts : ℕ → Bool) (n : ℕ) (s : Sys ι P) (i : ι) (j : Fin 3) :
    ∫ ω, (Lang.run w T (U ω) shifts (n + 1) g s).2.vel i j ∂μ =
      (1 + Real.exp (-g.dt * g.gamma)) / 2 * Real.exp (-g.dt * g.gamma) ^ n * s.vel i j := by
  simp only [run_vel h.complete h.types h.mass h.forces T g h.dt.ne']
  exact full_mean hU _ _ _ n i j

/-- C65: the second moments of the velocities after any number of steps. -/
theorem C65_moments [IsProbabilityMeasure μ] (hU : Uniforms μ U) {T : ℝ} {g : Lang} (h : Free w T g)
    (shifts : ℕ → Bool) (n : ℕ) (s : Sys ι P) (i i' : ι) (j j' : Fin 3) :
    ∫ ω, (Lang.run w T (U ω) shifts (n + 1) g s).2.vel i j *
        (Lang.run w T (U ω) shifts (n + 1) g s).2.vel i' j' ∂μ =
      (if (i, j) = (i', j') then T / w.mass (w.typ i) else 0) +
        ((1 + Real.exp (-g.dt * g.gamma)) / 2) ^ 2 * Real.exp (-g.dt * g.gamma) ^ (2 * n) *
        (s.vel i j * s.vel i' j' - if (i, j) = (i', j') then
          2 / (1 + Real.exp (-g.dt * g.gamma)) * (T / w.mass (w.typ i)) else 0) := by
  simp only [run_vel h.complete h.types h.mass h.forces T g h.dt.ne']
  have he := Real.exp_pos (-g.dt * g.gamma)
  rw [full_square hU _ _ _ n i i' j j' (if (i, j) = (i', j') then
          2 / (1 + Real.exp (-g.dt * g.gamma)) * (T / w.mass (w.typ i)) else 0)]
  · split
    · field_simp
      ring
    · ring
  · split
    case isTrue hi =>
      simp only [Prod.mk.injEq] at hi
      obtain ⟨rfl, -⟩ := hi
      exact (kick_square h i).symm
    case isFalse => ring

/-- C65: with friction the mean square of each component of the velocity tends to the
temperature divided by the mass, and different components become uncorrelated,
whatever the time step, the masses and the initial velocities. -/
theorem C65_equilibrium [IsProbabilityMeasure μ] (hU : Uniforms μ U) {T : ℝ} {g : Lang} (h : Free w T g)
    (hg : 0 < g.gamma) (shifts : ℕ → Bool) (s : Sys ι P) (i i' : ι) (j j' : Fin 3) :
    Tendsto (fun n => ∫ ω, (Lang.run w T (U ω) shifts n g s).2.vel i j *
        (Lang.run w T (U ω) shifts n g s).2.vel i' j' ∂μ) atTop
      (nhds (if (i, j) = (i', j') then T / w.mass (w.typ i) else 0)) := by
  rw [← tendsto_add_atTop_iff_nat 1]
  simp only [C65_moments hU h]
  have he := Real.exp_pos (-g.dt * g.gamma)
  have he1 : Real.exp (-g.dt * g.gamma) < 1 := by
    rw [Real.exp_lt_one_iff]
    nlinarith [h.dt, mul_pos h.dt hg]
  have ht : Tendsto (fun n => Real.exp (-g.dt * g.gamma) ^ (2 * n)) atTop (nhds 0) := by
    simp only [pow_mul]
    exact tendsto_pow_atTop_nhds_zero_of_lt_one (by positivity) (by nlinarith)
  have := ((ht.const_mul (((1 + Real.exp (-g.dt * g.gamma)) / 2) ^ 2)).mul_const
    (s.vel i j * s.vel i' j' - if (i, j) = (i', j') then
          2 / (1 + Real.exp (-g.dt * g.gamma)) * (T / w.mass (w.typ i)) else 0)).const_add
    (if (i, j) = (i', j') then T / w.mass (w.typ i) else 0)
  simpa using this

/-- C65: the mean kinetic energy tends to that of equipartition. -/
theorem C65_temperature [Fintype ι] [IsProbabilityMeasure μ] (hU : Uniforms μ U) {T : ℝ} {g : Lang}
    (h : Free w T g) (hg : 0 < g.gamma) (shifts : ℕ → Bool) (s : Sys ι P) :
    Tendsto (fun n => ∫ ω, kineticEnergy w (Lang.run w T (U ω) shifts n g s).2.vel ∂μ) atTop
      (nhds (3 / 2 * Fintype.card ι * T)) := by
  have hint : ∀ n i j, Integrable (fun ω => (Lang.run w T (U ω) shifts n g s).2.vel i j *
      (Lang.run w T (U ω) shifts n g s).2.vel i j) μ := by
    intro n i j
    simp only [run_vel h.complete h.types h.mass h.forces T g h.dt.ne']
    exact (full_memLp hU _ _ _ n i j).integrable_mul (full_memLp hU _ _ _ n i j)
  have hE : ∀ n, ∫ ω, kineticEnergy w (Lang.run w T (U ω) shifts n g s).2.vel ∂μ =
      ∑ i, ∑ j, w.mass (w.typ i) / 2 * ∫ ω, (Lang.run w T (U ω) shifts n g s).2.vel i j *
        (Lang.run w T (U ω) shifts n g s).2.vel i j ∂μ := by
    intro n
    have : (fun ω => kineticEnergy w (Lang.run w T (U ω) shifts n g s).2.vel) = fun ω =>
        ∑ i, ∑ j, w.mass (w.typ i) / 2 * ((Lang.run w T (U ω) shifts n g s).2.vel i j *
        (Lang.run w T (U ω) shifts n g s).2.vel i j) := by
      funext ω
      rw [kineticEnergy_eq h.complete, Finset.sum_div]
      refine Finset.sum_congr rfl fun i _ => ?_
      simp only [Fin.sum_univ_three, Integrate.sq, World.m]
      ring
    rw [this, integral_finsetSum _ fun i _ => integrable_finsetSum _ fun j _ => (hint n i j).const_mul _]
    refine Finset.sum_congr rfl fun i _ => ?_
    rw [integral_finsetSum _ fun j _ => (hint n i j).const_mul _]
    refine Finset.sum_congr rfl fun j _ => integral_const_mul _ _
  simp only [hE]
  have := tendsto_finsetSum (Finset.univ : Finset ι) fun i _ =>
    tendsto_finsetSum (Finset.univ : Finset (Fin 3)) fun j _ =>
      (C65_equilibrium hU h hg shifts s i i j j).const_mul (w.mass (w.typ i) / 2)
  refine this.trans_eq ?_
  congr 1
  simp only [if_true]
  rw [Finset.sum_congr rfl fun i _ => Finset.sum_congr rfl fun j _ =>
    show w.mass (w.typ i) / 2 * (T / w.mass (w.typ i)) = T / 2 by
      have := (h.mass i).ne'
      field_simp]
  simp
  ring

/-- The two integrators agree. -/
structure Same (w : World ι P) (x : Lang × Sys ι P) (y : Nve × Sys ι P) : Prop where
  sys : x.2 = y.2
  dt : x.1.dt = y.1.dt
  pref : ∀ i, x.1.pref (w.typ i) = y.1.pref (w.typ i)
  cv : ∀ i, x.1.cv (w.typ i) = 0
  cr : ∀ i, x.1.cr (w.typ i) = 0

theorem Same.step (hw : w.Complete) (V : ℕ → ι → Vec) {x : Lang × Sys ι P} {y : Nve × Sys ι P}
    (h : Same w x y) : Same w (Lang.step w V x) (Nve.next w y) := by
  refine ⟨?_, h.dt, h.pref, h.cv, h.cr⟩
  have h1 : x.1.step1 w x.2 = y.1.step1 w y.2 := by
    rw [Lang.step1_eq hw, Nve.step1_eq hw, h.sys, h.dt]
    simp only [h.pref]
  show x.1.step2 w (V x.1.drawn) (calculateForces w (refresh w (x.1.step1 w x.2))) =
    y.1.step2 w (calculateForces w (refresh w (y.1.step1 w y.2)))
  rw [h1, Lang.step2_eq hw, Nve.step2_eq hw]
  have ht : ∀ s : Sys ι P, x.1.total w (V x.1.drawn) s = s.force := by
    intro s
    funext i j
    simp [Lang.total, h.cv, h.cr]
  rw [ht]
  simp only [h.pref]

theorem Same.mainLoop (hw : w.Complete) (V : ℕ → ι → Vec) (shifts : ℕ → Bool) (n : ℕ) :
    ∀ (i : ℕ) {x : Lang × Sys ι P} {y : Nve × Sys ι P} (_ : Same w x y),
      (mainLoop w (Lang.step w V) shifts i n x).2 = (mainLoop w (Nve.next w) shifts i n y).2 := by
  induction n with
  | zero => intro i x y h; show shiftAtoms w x.2 = shiftAtoms w y.2; rw [h.sys]
  | succ n ih =>
    intro i x y h
    rw [Integrate.mainLoop, Integrate.mainLoop]
    refine ih (i + 1) (Same.step hw V ?_)
    split
    · exact ⟨by rw [h.sys], h.dt, h.pref, h.cv, h.cr⟩
    · exact h

/-- C65: without friction the integrator is the velocity Verlet integrator, for any forces
and any random numbers. -/
theorem C65_frictionless (hw : w.Complete) (ht : ∀ i, w.typ i < w.nType) (T : ℝ) (g : Lang)
    (hg : g.gamma = 0) (V : ℕ → ι → Vec) (shifts : ℕ → Bool) (n : ℕ) (s : Sys ι P) (g' : Nve)
    (hg' : g'.dt = g.dt) :
    (Lang.run w T V shifts n g s).2 =
      (simulate w (fun _ g => g.setup w) (Nve.next w) shifts n g' s).2 := by
  unfold Lang.run simulate
  refine Same.mainLoop hw V shifts n 0 ⟨rfl, hg'.symm, fun i => ?_, fun i => ?_, fun i => ?_⟩
  · show prefactors w g.dt g.pref (w.typ i) = prefactors w g'.dt g'.pref (w.typ i)
    unfold prefactors
    rw [pref_eq, pref_eq, hg']
    simp [ht i]
  · refine (coeff_cv ht T g i).trans ?_
    rw [hg]
    norm_num
  · refine (coeff_cr ht T g i).trans ?_
    rw [hg]
    norm_num

/-! ### A case that meets the hypotheses -/

/-- Two atoms of different masses without forces. -/
def gas : World (Fin 2) Unit where
  atoms := [0, 1]
  typ i := i
  nType := 2
  mass t := t + 1
  shift v := v
  isCurrent _ _ := true
  build _ _ := ()
  forces _ _ _ := 0

noncomputable def gasLang : Lang where
  dt := 1 / 100
  gamma := 2
  pref _ := 0
  cv _ := 0
  cr _ := 0
  drawn := 0

theorem gas_free : Free gas 3 gasLang where
  complete := ⟨by simp [gas], fun i => by fin_cases i <;> simp [gas]⟩
  types i := i.isLt
  mass i := by simp only [gas]; positivity
  forces _ _ _ := rfl
  temperature := by norm_num
  dt := by simp [gasLang]
  gamma := by simp [gasLang]

/-- The random numbers exist, so the mean kinetic energy of the two atoms tends to that of
temperature 3. -/
example : ∃ (Ω : Type) (_ : MeasurableSpace Ω) (μ : Measure Ω) (U : Ω → ℕ → Fin 2 → Vec),
    Uniforms μ U ∧ ∀ s : Sys (Fin 2) Unit,
      Tendsto (fun n => ∫ ω, kineticEnergy gas
        (Lang.run gas 3 (U ω) (fun _ => false) n gasLang s).2.vel ∂μ) atTop (nhds 9) := by
  obtain ⟨Ω, m, μ, X, -, hX, hi, hp⟩ :=
    exists_iid (ℕ × Fin 2 × Fin 3) (volume.restrict (Set.Icc (0 : ℝ) 1))
  have hU : Uniforms μ fun ω k i j => X (k, i, j) ω := ⟨fun k i j => hX (k, i, j), hi⟩
  refine ⟨Ω, m, μ, _, hU, fun s => ?_⟩
  have := C65_temperature hU gas_free (by simp [gasLang]) (fun _ => false) s
  norm_num at this
  exact this

end Verif.Thermo
