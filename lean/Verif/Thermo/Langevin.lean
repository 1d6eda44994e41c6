/-
Langevin dynamics without forces: the velocities as functions of the random
numbers.
-/
import Verif.Thermo.Model
import Verif.Integrate.Thermostat

set_option autoImplicit false
set_option linter.unusedSectionVars false

namespace Verif.Thermo

open Verif.Boundary Verif.Integrate

variable {ι : Type} [DecidableEq ι] {P : Type} {w : World ι P}

theorem Lang.step1_eq (hw : w.Complete) (g : Lang) (s : Sys ι P) :
    g.step1 w s = { s with
      vel := fun i => s.vel i + g.pref (w.typ i) • s.force i
      pos := fun i => s.pos i + g.dt • (s.vel i + g.pref (w.typ i) • s.force i) } := by
  unfold Lang.step1
  rw [each_eq' (h := fun i t => (t.1 + g.dt • (t.2.1 + g.pref (w.typ i) • t.2.2),
    t.2.1 + g.pref (w.typ i) • t.2.2, t.2.2)) hw.nodup (fun s i => by simp [Sys.set])]
  simp [Sys.mapOn, hw.all]

/-- The total force on an atom after the second loop. -/
noncomputable def Lang.total (w : World ι P) (g : Lang) (u : ι → Vec) (s : Sys ι P) (i : ι) : Vec :=
  s.force i + fun j => s.vel i j * g.cv (w.typ i) + (u i j - 0.5) * g.cr (w.typ i)

theorem Lang.step2_eq (hw : w.Complete) (g : Lang) (u : ι → Vec) (s : Sys ι P) :
    g.step2 w u s = { s with
      force := g.total w u s
      vel := fun i => s.vel i + g.pref (w.typ i) • g.total w u s i } := by
  unfold Lang.step2
  rw [each_eq' (h := fun i t => (t.1, t.2.1 + g.pref (w.typ i) • (t.2.2 + fun j =>
      t.2.1 j * g.cv (w.typ i) + (u i j - 0.5) * g.cr (w.typ i)),
      t.2.2 + fun j => t.2.1 j * g.cv (w.typ i) + (u i j - 0.5) * g.cr (w.typ i))) hw.nodup
    (fun s i => by simp [Sys.set])]
  simp only [Sys.mapOn, hw.all, if_true]
  rfl

theorem refresh_vel (hw : w.Complete) (s : Sys ι P) :
    (refresh w s).vel = s.vel ∧ (refresh w s).force = s.force := by
  unfold refresh
  split
  · exact ⟨rfl, rfl⟩
  · rw [buildPairList_eq hw]; exact ⟨rfl, rfl⟩

theorem calculateForces_vel (hw : w.Complete) (s : Sys ι P) :
    (calculateForces w s).vel = s.vel := by
  unfold calculateForces
  rw [addForces_eq hw]
  show (refresh w (setZeroForces w s)).vel = _
  rw [(refresh_vel hw _).1, setZeroForces_eq hw]

theorem calculateForces_free (hw : w.Complete) (h0 : ∀ l p i, w.forces l p i = 0) (s : Sys ι P) (i : ι) :
    (calculateForces w s).force i = 0 := by
  unfold calculateForces
  rw [addForces_eq hw]
  show (refresh w (setZeroForces w s)).force i + _ = _
  rw [(refresh_vel hw _).2, setZeroForces_eq hw, h0, add_zero]

theorem coeff_pref (ht : ∀ i, w.typ i < w.nType) (T : ℝ) (g : Lang) (i : ι) :
    (g.setup w T).pref (w.typ i) = 0.5 * g.dt / w.mass (w.typ i) := by
  unfold Lang.setup prefactors
  simp only
  rw [pref_eq]
  simp [ht i]

theorem coeff_cv (ht : ∀ i, w.typ i < w.nType) (T : ℝ) (g : Lang) (i : ι) :
    (g.setup w T).cv (w.typ i) = w.mass (w.typ i) * ((Real.exp (-g.dt * g.gamma) - 1.0) / g.dt) := by
  unfold Lang.setup
  simp only
  rw [pref_eq]
  simp [ht i]

theorem coeff_cr (ht : ∀ i, w.typ i < w.nType) (T : ℝ) (g : Lang) (i : ι) :
    (g.setup w T).cr (w.typ i) = Real.sqrt (w.mass (w.typ i) *
      (12.0 * T * (2.0 / (1.0 + Real.exp (-g.dt * g.gamma))) *
        (1.0 - Real.exp (-2.0 * g.dt * g.gamma)) / (g.dt * g.dt))) := by
  unfold Lang.setup
  simp only
  rw [pref_eq]
  simp [ht i]

/-! ### Velocities as functions of the random numbers -/

/-- Velocities between the steps `n` and `n + 1`: an autoregressive process. -/
noncomputable def half (e : ℝ) (c : ι → ℝ) (U : ℕ → ι → Vec) (v : ι → Vec) : ℕ → ι → Vec
  | 0 => v
  | n + 1 => fun i j => e * half e c U v n i j + c i * (U n i j - 1 / 2)

/-- Velocities after `n` steps. -/
noncomputable def full (e : ℝ) (c : ι → ℝ) (U : ℕ → ι → Vec) (v : ι → Vec) : ℕ → ι → Vec
  | 0 => v
  | n + 1 => fun i j => (1 + e) / 2 * half e c U v n i j + c i / 2 * (U n i j - 1 / 2)

/-- The data of the integrator during a run. -/
structure Lang.Ready (w : World ι P) (T dt gamma : ℝ) (g : Lang) : Prop where
  dt_eq : g.dt = dt
  pref_eq : ∀ i, g.pref (w.typ i) = 0.5 * dt / w.mass (w.typ i)
  cv_eq : ∀ i, g.cv (w.typ i) = w.mass (w.typ i) * ((Real.exp (-dt * gamma) - 1) / dt)
  cr_eq : ∀ i, g.cr (w.typ i) = Real.sqrt (w.mass (w.typ i) *
      (12 * T * (2 / (1 + Real.exp (-dt * gamma))) *
        (1 - Real.exp (-2 * dt * gamma)) / (dt * dt)))

theorem Lang.setup_ready (ht : ∀ i, w.typ i < w.nType) (T : ℝ) (g : Lang) (n : ℕ) :
    Lang.Ready w T g.dt g.gamma { g.setup w T with drawn := n } where
  dt_eq := rfl
  pref_eq i := coeff_pref ht T g i
  cv_eq i := (coeff_cv ht T g i).trans (by norm_num)
  cr_eq i := (coeff_cr ht T g i).trans (by norm_num)

/-- The factor of the random number in the velocity of an atom. -/
noncomputable def kickSize (w : World ι P) (T dt gamma : ℝ) (i : ι) : ℝ :=
  dt / w.mass (w.typ i) * Real.sqrt (w.mass (w.typ i) *
      (12 * T * (2 / (1 + Real.exp (-dt * gamma))) *
        (1 - Real.exp (-2 * dt * gamma)) / (dt * dt)))

/-- What is known of the velocities and forces after `k` steps. -/
structure Follows (w : World ι P) (T dt gamma : ℝ) (U : ℕ → ι → Vec) (v : ι → Vec) (k : ℕ)
    (x : Lang × Sys ι P) : Prop where
  ready : Lang.Ready w T dt gamma x.1
  drawn : x.1.drawn = k
  vel : x.2.vel = full (Real.exp (-dt * gamma)) (kickSize w T dt gamma) U v k
  next : ∀ i, x.2.vel i + x.1.pref (w.typ i) • x.2.force i =
    half (Real.exp (-dt * gamma)) (kickSize w T dt gamma) U v k i

theorem Follows.step (hw : w.Complete) (hm : ∀ i, 0 < w.mass (w.typ i))
    (h0 : ∀ l p i, w.forces l p i = 0) {T dt gamma : ℝ} (hdt : dt ≠ 0) {U : ℕ → ι → Vec} {v : ι → Vec}
    {k : ℕ} {x : Lang × Sys ι P} (h : Follows w T dt gamma U v k x) :
    Follows w T dt gamma U v (k + 1) (Lang.step w U x) := by
  have hvel : (calculateForces w (refresh w (x.1.step1 w x.2))).vel =
      half (Real.exp (-dt * gamma)) (kickSize w T dt gamma) U v k := by
    rw [calculateForces_vel hw, (refresh_vel hw _).1, Lang.step1_eq hw]
    funext i
    exact h.next i
  have hfor : ∀ i, (calculateForces w (refresh w (x.1.step1 w x.2))).force i = 0 :=
    calculateForces_free hw h0 _
  unfold Lang.step
  simp only
  rw [Lang.step2_eq hw]
  refine ⟨⟨h.ready.dt_eq, h.ready.pref_eq, h.ready.cv_eq, h.ready.cr_eq⟩, by simp [h.drawn], ?_, ?_⟩
  · funext i j
    have := (hm i).ne'
    simp only [Lang.total, hvel, hfor, full, Pi.add_apply, Pi.smul_apply, smul_eq_mul, Pi.zero_apply,
      h.ready.pref_eq, h.ready.cv_eq, h.ready.cr_eq, h.drawn, kickSize]
    field_simp
    ring
  · intro i
    funext j
    have := (hm i).ne'
    simp only [Lang.total, hvel, hfor, half, Pi.add_apply, Pi.smul_apply, smul_eq_mul, Pi.zero_apply,
      h.ready.pref_eq, h.ready.cv_eq, h.ready.cr_eq, h.drawn, kickSize]
    field_simp
    ring

theorem Follows.shift (hw : w.Complete) {T dt gamma : ℝ} {U : ℕ → ι → Vec} {v : ι → Vec}
    {k : ℕ} {x : Lang × Sys ι P} (h : Follows w T dt gamma U v k x) :
    Follows w T dt gamma U v k (x.1, shiftAtoms w x.2) := by
  rw [shiftAtoms_eq hw]
  exact ⟨h.ready, h.drawn, h.vel, h.next⟩

theorem Follows.mainLoop (hw : w.Complete) (hm : ∀ i, 0 < w.mass (w.typ i))
    (h0 : ∀ l p i, w.forces l p i = 0) {T dt gamma : ℝ} (hdt : dt ≠ 0) {U : ℕ → ι → Vec} {v : ι → Vec}
    (shifts : ℕ → Bool) (n : ℕ) : ∀ (i : ℕ) {k : ℕ} {x : Lang × Sys ι P}
      (_ : Follows w T dt gamma U v k x),
      Follows w T dt gamma U v (k + n) (Integrate.mainLoop w (Lang.step w U) shifts i n x) := by
  induction n with
  | zero => intro i k x h; exact h.shift hw
  | succ n ih =>
    intro i k x h
    rw [Integrate.mainLoop]
    have := ih (i + 1) (k := k + 1) (x := Lang.step w U (if shifts i then (x.1, shiftAtoms w x.2) else x)) (by
      refine Follows.step hw hm h0 hdt ?_
      split
      · exact h.shift hw
      · exact h)
    rw [show k + (n + 1) = k + 1 + n by ring]
    exact this

theorem run_vel (hw : w.Complete) (ht : ∀ i, w.typ i < w.nType) (hm : ∀ i, 0 < w.mass (w.typ i))
    (h0 : ∀ l p i, w.forces l p i = 0) (T : ℝ) (g : Lang) (hdt : g.dt ≠ 0) (U : ℕ → ι → Vec)
    (shifts : ℕ → Bool) (n : ℕ) (s : Sys ι P) :
    (Lang.run w T U shifts n g s).2.vel =
      full (Real.exp (-g.dt * g.gamma)) (kickSize w T g.dt g.gamma) U s.vel n := by
  unfold Lang.run simulate
  have h : Follows w T g.dt g.gamma U s.vel 0
      ({ g.setup w T with drawn := 0 }, calculateForces w (shiftAtoms w s)) := by
    have hv : (calculateForces w (shiftAtoms w s)).vel = s.vel := by
      rw [calculateForces_vel hw, shiftAtoms_eq hw]
    refine ⟨Lang.setup_ready ht T g 0, rfl, hv, fun i => ?_⟩
    show (calculateForces w (shiftAtoms w s)).vel i + _ • (calculateForces w (shiftAtoms w s)).force i = _
    rw [hv, calculateForces_free hw h0, smul_zero, add_zero]
    rfl
  have := (Follows.mainLoop hw hm h0 hdt (U := U) shifts n 0 h).vel
  rw [zero_add] at this
  exact this

end Verif.Thermo
