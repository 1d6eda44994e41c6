/-
The Nose-Hoover thermostat: the program follows the algorithm of Winkler et al.
up to periodic images; the algorithm is reversible.
-/
import Verif.Integrate.Verlet

set_option autoImplicit false

namespace Verif.Integrate

open Verif.Boundary

/-! ### Specification -/

section Spec

variable {ι : Type}

/-- Rate of change of the thermostat variable: deviation of the kinetic
temperature from the target, in units of the time constant. -/
noncomputable def deviation [Fintype ι] (m : ι → ℝ) (T nu : ℝ) (v : ι → Vec) : ℝ :=
  ((∑ i, m i * sq (v i)) / (3 * Fintype.card ι) / T - 1) * nu ^ 2

/-- Positions, velocities and the thermostat variable. -/
abbrev ThermoPhase (ι : Type) := Phase ι × ℝ

/-- One step of a thermostatted velocity Verlet algorithm: half a step for the
friction, velocities damped during half a step and kicked, free motion,
velocities kicked and damped, half a step for the friction. -/
noncomputable def noseHoover (m : ι → ℝ) (F : (ι → Vec) → ι → Vec) (rate : (ι → Vec) → ℝ) (dt : ℝ)
    (y : ThermoPhase ι) : ThermoPhase ι :=
  let ξ := y.2 + dt / 2 * rate y.1.2
  let damp : Phase ι → Phase ι := fun z => (z.1, fun i => Real.exp (-(dt / 2) * ξ) • z.2 i)
  let z := damp (kick m F (dt / 2) (drift dt (kick m F (dt / 2) (damp y.1))))
  (z, ξ + dt / 2 * rate z.2)

/-- Reversal of the velocities and of the friction. -/
def flipThermo (y : ThermoPhase ι) : ThermoPhase ι := (flip y.1, -y.2)

theorem damp_flip (c : ℝ) (hc : c ≠ 0) (z : Phase ι) :
    ((flip (z.1, fun i => c • z.2 i)).1, fun i => c⁻¹ • (flip (z.1, fun i => c • z.2 i)).2 i) =
      flip z := by
  unfold flip
  ext1
  · rfl
  · funext i
    dsimp only
    rw [← smul_neg, smul_smul, inv_mul_cancel₀ hc, one_smul]

/-- The thermostatted algorithm is reversible. -/
theorem noseHoover_flip (m : ι → ℝ) (F : (ι → Vec) → ι → Vec) (rate : (ι → Vec) → ℝ)
    (hr : ∀ v, rate (fun i => -v i) = rate v) (dt : ℝ) (y : ThermoPhase ι) :
    noseHoover m F rate dt (flipThermo (noseHoover m F rate dt y)) = flipThermo y := by
  set ξ := y.2 + dt / 2 * rate y.1.2 with hξ
  set c := Real.exp (-(dt / 2) * ξ) with hc
  have hc0 : c ≠ 0 := (Real.exp_pos _).ne'
  set z := kick m F (dt / 2) (drift dt (kick m F (dt / 2) (y.1.1, fun i => c • y.1.2 i))) with hz
  have e1 : noseHoover m F rate dt y =
      ((z.1, fun i => c • z.2 i), ξ + dt / 2 * rate fun i => c • z.2 i) := rfl
  rw [e1]
  unfold noseHoover flipThermo
  dsimp only
  have e2 : -(ξ + dt / 2 * rate fun i => c • z.2 i) + dt / 2 * rate (flip (z.1, fun i => c • z.2 i)).2
      = -ξ := by
    have : rate (flip (z.1, fun i => c • z.2 i)).2 = rate fun i => c • z.2 i := hr _
    rw [this]; ring
  rw [e2]
  have e3 : Real.exp (-(dt / 2) * -ξ) = c⁻¹ := by
    rw [hc, ← Real.exp_neg]
    congr 1
    ring
  rw [e3, damp_flip c hc0]
  have e4 : kick m F (dt / 2) (drift dt (kick m F (dt / 2) (flip z))) =
      flip (y.1.1, fun i => c • y.1.2 i) := by
    rw [hz, kick_flip, drift_flip, kick_flip]
  rw [e4]
  have e5 := damp_flip c hc0 y.1
  have e6 : (fun i => c⁻¹ • (flip (y.1.1, fun i => c • y.1.2 i)).2 i) = (flip y.1).2 :=
    congrArg Prod.snd e5
  rw [e6]
  have : rate (flip y.1).2 = rate y.1.2 := hr _
  rw [this]
  refine Prod.ext rfl ?_
  dsimp only
  rw [hξ]
  ring

theorem deviation_neg [Fintype ι] (m : ι → ℝ) (T nu : ℝ) (v : ι → Vec) :
    deviation m T nu (fun i => -v i) = deviation m T nu v := by
  unfold deviation sq
  simp

theorem momentum_smul [Fintype ι] (m : ι → ℝ) (c : ℝ) (v : ι → Vec) :
    momentum m (fun i => c • v i) = c • momentum m v := by
  unfold momentum
  rw [Finset.smul_sum]
  exact Finset.sum_congr rfl fun i _ => smul_comm _ _ _

/-- The total momentum is only scaled. -/
theorem momentum_noseHoover [Fintype ι] (m : ι → ℝ) (hm : ∀ i, m i ≠ 0) (F : (ι → Vec) → ι → Vec)
    (hF : ∀ p, ∑ i, F p i = 0) (rate : (ι → Vec) → ℝ) (dt : ℝ) (y : ThermoPhase ι) :
    momentum m (noseHoover m F rate dt y).1.2 =
      Real.exp (-dt * (y.2 + dt / 2 * rate y.1.2)) • momentum m y.1.2 := by
  unfold noseHoover
  dsimp only
  rw [momentum_smul, momentum_kick m hm F hF]
  have : ∀ z : Phase ι, (drift dt z).2 = z.2 := fun _ => rfl
  rw [this, momentum_kick m hm F hF, momentum_smul, smul_smul, ← Real.exp_add]
  congr 2
  ring

end Spec

/-! ### Refinement -/

variable {ι : Type} [DecidableEq ι] {P : Type} {w : World ι P} {Λ : AddSubgroup Vec}
  {F : (ι → Vec) → ι → Vec} {cell : Set (ι → Vec)} {ok : P → (ι → Vec) → Prop}
  {adm : (ι → Vec) → (ι → Vec) → Prop}

theorem foldl_sum (l : List ι) (f : ι → ℝ) (e : ℝ) :
    l.foldl (fun e i => e + f i) e = e + (l.map f).sum := by
  induction l generalizing e with
  | nil => simp
  | cons a l ih => rw [List.foldl_cons, ih, List.map_cons, List.sum_cons, add_assoc]

theorem World.Complete.sum [Fintype ι] (hw : w.Complete) (f : ι → ℝ) :
    (w.atoms.map f).sum = ∑ i, f i := by
  rw [← List.sum_toFinset f hw.nodup]
  congr 1
  ext i
  simp [hw.all]

theorem World.Complete.card [Fintype ι] (hw : w.Complete) : w.atoms.length = Fintype.card ι := by
  rw [← List.toFinset_card_of_nodup hw.nodup]
  congr 1
  ext i
  simp [hw.all]

/-- The kinetic energy returned is half the sum of mass times squared velocity. -/
theorem kineticEnergy_eq [Fintype ι] (hw : w.Complete) (v : ι → Vec) :
    kineticEnergy w v = (∑ i, w.m i * sq (v i)) / 2 := by
  unfold kineticEnergy World.each
  rw [foldl_sum, hw.sum]
  have : ∀ i, sq (v i) * w.mass (w.typ i) = w.m i * sq (v i) := fun i => mul_comm _ _
  simp only [this]
  ring

theorem xiRate_eq [Fintype ι] (hw : w.Complete) (T nu : ℝ) (v : ι → Vec) :
    xiRate w T nu v = deviation w.m T nu v := by
  unfold xiRate deviation
  rw [kineticEnergy_eq hw, hw.card]
  push_cast
  have h2 : (2.0 : ℝ) = 2 := by norm_num
  have h1 : (1.0 : ℝ) = 1 := by norm_num
  rw [h2, h1, div_mul_cancel₀ _ (two_ne_zero)]
  ring

/-- The integrator has been set up, or has made steps since. -/
structure Nh.Rep [Fintype ι] (w : World ι P) (Λ : AddSubgroup Vec) (F : (ι → Vec) → ι → Vec)
    (ok : P → (ι → Vec) → Prop) (T : ℝ) (x : Nh × Sys ι P) (y : ThermoPhase ι) : Prop where
  sys : Integrate.Rep Λ F ok x.2 y.1
  pref : ∀ i, x.1.pref (w.typ i) = x.1.dt / 2 / w.m i
  xi : x.1.xi = y.2
  xiDot : x.1.xiDot = deviation w.m T x.1.nuT y.1.2

theorem Nh.setup_rep [Fintype ι] (hw : w.Exact Λ F cell ok adm) (T : ℝ) (g : Nh) {s : Sys ι P}
    {z : Phase ι} (h : Integrate.Rep Λ F ok s z) :
    Nh.Rep w Λ F ok T (g.setup w T s, s) (z, 0) where
  sys := h
  pref := fun i => prefactors_eq hw _ _ i
  xi := rfl
  xiDot := by
    change xiRate w T g.nuT s.vel = _
    rw [xiRate_eq hw.toComplete, h.vel]
    rfl

/-- The displacements of one step of the thermostatted algorithm. -/
noncomputable def thermoDisplacement (m : ι → ℝ) (F : (ι → Vec) → ι → Vec) (rate : (ι → Vec) → ℝ)
    (dt : ℝ) (y : ThermoPhase ι) : ι → Vec := fun i =>
  dt • (Real.exp (-(dt / 2) * (y.2 + dt / 2 * rate y.1.2)) • y.1.2 i + (dt / 2 / m i) • F y.1.1 i)

/-- The displacements of the first `n` steps are admissible. -/
def ThermoAdmissible (adm : (ι → Vec) → (ι → Vec) → Prop) (m : ι → ℝ) (F : (ι → Vec) → ι → Vec)
    (rate : (ι → Vec) → ℝ) (dt : ℝ) (n : ℕ) (y : ThermoPhase ι) : Prop :=
  ∀ k < n, adm ((noseHoover m F rate dt)^[k] y).1.1
    (thermoDisplacement m F rate dt ((noseHoover m F rate dt)^[k] y))

/-- **One step of the program is one step of the thermostatted algorithm.** -/
theorem Nh.step_rep [Fintype ι] (hw : w.Exact Λ F cell ok adm) (T : ℝ) {x : Nh × Sys ι P}
    {y : ThermoPhase ι} (h : Nh.Rep w Λ F ok T x y)
    (had : adm y.1.1 (thermoDisplacement w.m F (deviation w.m T x.1.nuT) x.1.dt y)) :
    Nh.Rep w Λ F ok T (Nh.step w T x)
      (noseHoover w.m F (deviation w.m T x.1.nuT) x.1.dt y) ∧
    (Nh.step w T x).1.dt = x.1.dt ∧ (Nh.step w T x).1.nuT = x.1.nuT := by
  refine ⟨?_, rfl, rfl⟩
  obtain ⟨g, s⟩ := x
  obtain ⟨hs, hp, hx, hd⟩ := h
  dsimp only at hs hp hx hd had
  set c := Real.exp (-(g.dt / 2) * (y.2 + g.dt / 2 * deviation w.m T g.nuT y.1.2)) with hc
  have e0 : Real.exp (-(0.5 * g.dt) * (g.xi + g.xiDot * (0.5 * g.dt))) = c := by
    rw [hc, hx, hd]
    congr 1
    ring
  set s1 : Sys ι P := { s with
      vel := fun i => c • s.vel i + g.pref (w.typ i) • s.force i
      pos := fun i => s.pos i + g.dt • (c • s.vel i + g.pref (w.typ i) • s.force i) } with hs1
  have hdis : (fun i => g.dt • (c • s.vel i + g.pref (w.typ i) • s.force i)) =
      thermoDisplacement w.m F (deviation w.m T g.nuT) g.dt y := by
    funext i
    rw [hp i, hs.vel, hs.force]
    rfl
  have hb : s1.Safe w cell ok := by
    have := hw.move _ _ _ _ hs.list hs.pos had
    rw [← hdis] at this
    exact this
  obtain ⟨hb2, him2, hv2, _⟩ := refresh_spec hw hb
  have e3 := calculateForces_ok hw hb2
  set z1 := drift g.dt (kick w.m F (g.dt / 2) (y.1.1, fun i => c • y.1.2 i)) with hz1
  have hxim : Image Λ z1.1 s1.pos := by
    intro i
    have := (hs.pos.add fun i => g.dt • (c • s.vel i + g.pref (w.typ i) • s.force i)) i
    rw [hs1]
    dsimp only at this ⊢
    rw [hp i, hs.vel, hs.force] at this ⊢
    exact this
  have hvel : (fun i => c • ((calculateForces w (refresh w s1)).vel i +
      g.pref (w.typ i) • (calculateForces w (refresh w s1)).force i)) =
      fun i => c • (kick w.m F (g.dt / 2) z1).2 i := by
    funext i
    rw [e3]
    dsimp only
    rw [hv2, hw.periodic _ _ (hxim.trans him2), hp i, hs1]
    dsimp only
    rw [hs.vel, hs.force, hp i]
    rfl
  have hstep : Nh.step w T (g, s) =
      (let s' : Sys ι P := { calculateForces w (refresh w s1) with
          vel := fun i => c • (kick w.m F (g.dt / 2) z1).2 i }
       ({ g with xiDot := xiRate w T g.nuT s'.vel
                 xi := g.xi + g.xiDot * (0.5 * g.dt) + xiRate w T g.nuT s'.vel * (0.5 * g.dt) }, s')) := by
    unfold Nh.step
    dsimp only
    rw [e0, Nh.step1_eq hw.toComplete, Nh.step2_eq hw.toComplete, ← hs1, hvel]
  rw [hstep]
  have hspec : noseHoover w.m F (deviation w.m T g.nuT) g.dt y =
      (let z := kick w.m F (g.dt / 2) z1
       let v := fun i => c • z.2 i
       ((z.1, v), y.2 + g.dt / 2 * deviation w.m T g.nuT y.1.2 +
          g.dt / 2 * deviation w.m T g.nuT v)) := rfl
  rw [hspec, e3]
  dsimp only
  refine ⟨⟨hb2, hxim.trans him2, rfl, ?_⟩, hp, ?_, ?_⟩
  · dsimp only
    rw [hw.periodic _ _ (hxim.trans him2)]
    rfl
  · dsimp only
    rw [xiRate_eq hw.toComplete, hx, hd]
    ring
  · dsimp only
    rw [xiRate_eq hw.toComplete]

theorem Nh.iterate_rep [Fintype ι] (hw : w.Exact Λ F cell ok adm) (T : ℝ) (n : ℕ)
    {x : Nh × Sys ι P} {y : ThermoPhase ι} (h : Nh.Rep w Λ F ok T x y)
    (had : ThermoAdmissible adm w.m F (deviation w.m T x.1.nuT) x.1.dt n y) :
    Nh.Rep w Λ F ok T ((Nh.step w T)^[n] x)
      ((noseHoover w.m F (deviation w.m T x.1.nuT) x.1.dt)^[n] y) ∧
    ((Nh.step w T)^[n] x).1.dt = x.1.dt ∧ ((Nh.step w T)^[n] x).1.nuT = x.1.nuT := by
  induction n generalizing x y with
  | zero => exact ⟨h, rfl, rfl⟩
  | succ n ih =>
    obtain ⟨h1, h2, h3⟩ := Nh.step_rep hw T h (had 0 (by omega))
    have := ih h1 (by
      rw [h2, h3]
      intro k hk
      have := had (k + 1) (by omega)
      rwa [Function.iterate_succ_apply] at this)
    rw [h2, h3] at this
    exact this

theorem Nh.shiftAtoms_rep [Fintype ι] (hw : w.Exact Λ F cell ok adm) {T : ℝ} {x : Nh × Sys ι P}
    {y : ThermoPhase ι} (h : Nh.Rep w Λ F ok T x y) :
    Nh.Rep w Λ F ok T (x.1, shiftAtoms w x.2) y :=
  ⟨Integrate.shiftAtoms_rep hw h.sys, h.pref, h.xi, h.xiDot⟩

theorem Nh.mainLoop_rep [Fintype ι] (hw : w.Exact Λ F cell ok adm) (T : ℝ) (shifts : ℕ → Bool)
    (n : ℕ) : ∀ (i : ℕ) {x : Nh × Sys ι P} {y : ThermoPhase ι} (_ : Nh.Rep w Λ F ok T x y)
      (_ : ThermoAdmissible adm w.m F (deviation w.m T x.1.nuT) x.1.dt n y),
      Nh.Rep w Λ F ok T (mainLoop w (Nh.step w T) shifts i n x)
        ((noseHoover w.m F (deviation w.m T x.1.nuT) x.1.dt)^[n] y) := by
  induction n with
  | zero => exact fun i x y h _ => Nh.shiftAtoms_rep hw h
  | succ n ih =>
    intro i x y h had
    rw [mainLoop, Function.iterate_succ_apply]
    have key : ∀ x', Nh.Rep w Λ F ok T x' y → x'.1.dt = x.1.dt → x'.1.nuT = x.1.nuT →
        Nh.Rep w Λ F ok T (mainLoop w (Nh.step w T) shifts (i + 1) n (Nh.step w T x'))
          ((noseHoover w.m F (deviation w.m T x.1.nuT) x.1.dt)^[n]
            (noseHoover w.m F (deviation w.m T x.1.nuT) x.1.dt y)) := by
      intro x' h' e1 e2
      rw [← e1, ← e2] at had ⊢
      obtain ⟨h1, h2, h3⟩ := Nh.step_rep hw T h' (had 0 (by omega))
      have := ih (i + 1) h1 (by
        rw [h2, h3]
        intro k hk
        have := had (k + 1) (by omega)
        rwa [Function.iterate_succ_apply] at this)
      rwa [h2, h3] at this
    split
    · exact key _ (Nh.shiftAtoms_rep hw h) rfl rfl
    · exact key _ h rfl rfl

/-- A simulation of `n` steps with the thermostat. -/
theorem Nh.simulate_rep [Fintype ι] (hw : w.Exact Λ F cell ok adm) (T : ℝ) (g : Nh)
    (shifts : ℕ → Bool) (n : ℕ) {s : Sys ι P} (hs : (shiftAtoms w s).Safe w cell ok)
    (had : ThermoAdmissible adm w.m F (deviation w.m T g.nuT) g.dt n ((s.pos, s.vel), 0)) :
    Nh.Rep w Λ F ok T (simulate w (fun s g => g.setup w T s) (Nh.step w T) shifts n g s)
      ((noseHoover w.m F (deviation w.m T g.nuT) g.dt)^[n] ((s.pos, s.vel), 0)) := by
  unfold simulate
  exact Nh.mainLoop_rep hw T shifts n 0 (Nh.setup_rep hw T g (start_rep hw hs)) had

/-- The integrator of ddMd makes the same step. -/
theorem Nh.ddStep_eq (T : ℝ) (x : Nh × Sys ι P) : Nh.ddStep w T x = Nh.step w T x := rfl

end Verif.Integrate
