/-
Property C66: the forces of dissipative particle dynamics.
-/
import Verif.Thermo.Moments
import Mathlib.Probability.Independence.Integration
import Mathlib.Probability.HasLawExists
import Mathlib.Probability.Distributions.Gaussian.Real

set_option autoImplicit false
set_option linter.unusedSectionVars false

namespace Verif.Thermo

open Verif.Boundary Verif.Integrate MeasureTheory ProbabilityTheory

variable {ι : Type} [DecidableEq ι] {P : Type} {w : World ι P} {q : Pairs ι P}

/-- The power of forces `f` at velocities `x`. -/
noncomputable def power [Fintype ι] (f x : ι → Vec) : ℝ := ∑ i, dot (f i) (x i)

/-- The unit vector between two atoms. -/
noncomputable def unit (q : Pairs ι P) (s : Sys ι P) (ab : ι × ι) : Vec := fun j =>
  (q.distanceSq (s.pos ab.1) (s.pos ab.2)).2 j /
    Real.sqrt (q.distanceSq (s.pos ab.1) (s.pos ab.2)).1

/-- The weight of a pair. -/
noncomputable def wt (kind : ℕ) (q : Pairs ι P) (g : Dpd ι) (s : Sys ι P) (ab : ι × ι) : ℝ :=
  weight kind g.cutoff g.cutoffSq (Real.sqrt (q.distanceSq (s.pos ab.1) (s.pos ab.2)).1)
    (q.distanceSq (s.pos ab.1) (s.pos ab.2)).1

/-- The pairs closer than the cutoff. -/
noncomputable def close (q : Pairs ι P) (g : Dpd ι) (s : Sys ι P) : List (ι × ι) :=
  (q.pairs s.list).filter fun ab => (q.distanceSq (s.pos ab.1) (s.pos ab.2)).1 < g.cutoffSq

/-- Relative velocity of a pair along the line between the atoms. -/
noncomputable def along (q : Pairs ι P) (s : Sys ι P) (x : ι → Vec) (ab : ι × ι) : ℝ :=
  dot (x ab.1 - x ab.2) (unit q s ab)

theorem dot_add (a b c : Vec) : dot (a + b) c = dot a c + dot b c := by
  simp [dot]; ring

theorem power_update [Fintype ι] (f x : ι → Vec) (a : ι) (v : Vec) :
    power (Function.update f a v) x = power f x + dot (v - f a) (x a) := by
  unfold power
  rw [← Finset.add_sum_erase _ _ (Finset.mem_univ a), ← Finset.add_sum_erase _ (fun i => dot (f i) (x i))
    (Finset.mem_univ a), Finset.sum_congr rfl fun i hi => by
      rw [Function.update_of_ne (Finset.ne_of_mem_erase hi)]]
  simp only [Function.update_self]
  simp [dot]
  ring

/-- A force and its opposite are added to two atoms. -/
theorem power_pair [Fintype ι] (f x : ι → Vec) (a b : ι) (v : Vec) :
    power (Function.update (Function.update f a (f a + v)) b
      (Function.update f a (f a + v) b - v)) x = power f x + dot v (x a - x b) := by
  rw [power_update, power_update]
  simp [dot]
  ring

theorem dot_smul_comm (c : ℝ) (e u : Vec) : dot (c • e) u = c * dot u e := by
  simp [dot]; ring

/-- What the loop over pairs does not change. -/
structure Dpd.Alike (g g' : Dpd ι) : Prop where
  dt : g'.dt = g.dt
  cutoff : g'.cutoff = g.cutoff
  gamma : g'.gamma = g.gamma
  sigma : g'.sigma = g.sigma
  cutoffSq : g'.cutoffSq = g.cutoffSq
  pref : g'.pref = g.pref

theorem Dpd.Alike.refl (g : Dpd ι) : g.Alike g := ⟨rfl, rfl, rfl, rfl, rfl, rfl⟩

theorem Dpd.Alike.trans {g g' g'' : Dpd ι} (h : g.Alike g') (h' : g'.Alike g'') : g.Alike g'' :=
  ⟨h'.dt.trans h.dt, h'.cutoff.trans h.cutoff, h'.gamma.trans h.gamma, h'.sigma.trans h.sigma,
    h'.cutoffSq.trans h.cutoffSq, h'.pref.trans h.pref⟩

/-- The random forces as sums of random numbers. -/
noncomputable def noise (G : ℕ → ℝ) (c : ι × ι → ℝ) : ℕ → List (ι × ι) → ℝ
  | _, [] => 0
  | d, ab :: l => c ab * G d + noise G c (d + 1) l

variable (kind : ℕ) (G : ℕ → ℝ)

theorem pair_alike (random : Bool) (s : Sys ι P) (g : Dpd ι) (ab : ι × ι) :
    g.Alike (Dpd.pair kind q G random s g ab) := by
  unfold Dpd.pair
  cases random <;> (simp only; split <;> exact ⟨rfl, rfl, rfl, rfl, rfl, rfl⟩)

theorem fold_alike (random : Bool) (s : Sys ι P) (l : List (ι × ι)) : ∀ g : Dpd ι,
    g.Alike (l.foldl (Dpd.pair kind q G random s) g) := by
  induction l with
  | nil => exact fun g => .refl g
  | cons ab l ih => exact fun g => (pair_alike kind G random s g ab).trans (ih _)

theorem pair_power [Fintype ι] (random : Bool) (s : Sys ι P) (g : Dpd ι) (ab : ι × ι) (x : ι → Vec)
    (h : (q.distanceSq (s.pos ab.1) (s.pos ab.2)).1 < g.cutoffSq) :
    power (Dpd.pair kind q G random s g ab).diss x = power g.diss x -
        g.gamma * wt kind q g s ab * wt kind q g s ab * along q s s.vel ab * along q s x ab ∧
      power (Dpd.pair kind q G random s g ab).rand x = power g.rand x +
        (if random then g.sigma * wt kind q g s ab * G g.drawn * along q s x ab else 0) ∧
      (Dpd.pair kind q G random s g ab).drawn = g.drawn + if random then 1 else 0 := by
  unfold Dpd.pair
  simp only [h, if_true]
  cases random
  · refine ⟨?_, by simp, by simp⟩
    simp only [Bool.false_eq_true, if_false]
    rw [power_pair, dot_smul_comm]
    unfold along unit wt
    ring
  · refine ⟨?_, ?_, by simp⟩
    · simp only [if_true]
      rw [power_pair, dot_smul_comm]
      unfold along unit wt
      ring
    · simp only [if_true]
      rw [power_pair, dot_smul_comm]
      unfold along unit wt
      ring

theorem fold_power [Fintype ι] (random : Bool) (s : Sys ι P) (x : ι → Vec) (g₀ : Dpd ι)
    (l : List (ι × ι)) : ∀ g : Dpd ι, g₀.Alike g →
    power (l.foldl (Dpd.pair kind q G random s) g).diss x = power g.diss x -
        ((l.filter fun ab => (q.distanceSq (s.pos ab.1) (s.pos ab.2)).1 < g₀.cutoffSq).map fun ab =>
          g₀.gamma * wt kind q g₀ s ab * wt kind q g₀ s ab * along q s s.vel ab * along q s x ab).sum ∧
      power (l.foldl (Dpd.pair kind q G random s) g).rand x = power g.rand x +
        (if random then noise G (fun ab => g₀.sigma * wt kind q g₀ s ab * along q s x ab) g.drawn
          (l.filter fun ab => (q.distanceSq (s.pos ab.1) (s.pos ab.2)).1 < g₀.cutoffSq) else 0) := by
  induction l with
  | nil => intro g _; simp [noise]
  | cons ab l ih =>
    intro g hg
    rw [List.foldl_cons]
    have hwt : wt kind q g s ab = wt kind q g₀ s ab := by unfold wt; rw [hg.cutoff, hg.cutoffSq]
    obtain ⟨h1, h2⟩ := ih _ (hg.trans (pair_alike kind G random s g ab))
    rw [h1, h2]
    by_cases h : (q.distanceSq (s.pos ab.1) (s.pos ab.2)).1 < g₀.cutoffSq
    · obtain ⟨p1, p2, p3⟩ := pair_power kind G random s g ab x (by rw [hg.cutoffSq]; exact h)
      rw [p1, p2, p3, List.filter_cons_of_pos (by simpa using h), hwt, hg.gamma, hg.sigma]
      refine ⟨by rw [List.map_cons, List.sum_cons]; ring, ?_⟩
      cases random
      · simp
      · simp only [if_true, noise]
        ring
    · rw [List.filter_cons_of_neg (by simpa using h)]
      have : Dpd.pair kind q G random s g ab = g := by
        unfold Dpd.pair
        simp only
        rw [if_neg (by rw [hg.cutoffSq]; exact h)]
      rw [this]
      exact ⟨rfl, rfl⟩

theorem power_zero [Fintype ι] (x : ι → Vec) : power (fun _ => (0 : Vec)) x = 0 := by
  simp [power, dot]

theorem forces_alike (random : Bool) (s : Sys ι P) (g : Dpd ι) :
    g.Alike (g.forces kind q G random s) := by
  unfold Dpd.forces
  refine Dpd.Alike.trans ?_ (fold_alike kind G random s _ _)
  cases random <;> exact ⟨rfl, rfl, rfl, rfl, rfl, rfl⟩

/-- The power of the dissipative forces. -/
theorem forces_diss [Fintype ι] (random : Bool) (s : Sys ι P) (g : Dpd ι) (x : ι → Vec) :
    power (g.forces kind q G random s).diss x = -((close q g s).map fun ab =>
      g.gamma * wt kind q g s ab * wt kind q g s ab * along q s s.vel ab * along q s x ab).sum := by
  unfold Dpd.forces
  simp only
  rw [(fold_power kind G random s x g _ _ (by cases random <;> exact ⟨rfl, rfl, rfl, rfl, rfl, rfl⟩)).1]
  have : power (if random then { { g with diss := fun _ => (0 : Vec) } with rand := fun _ => (0 : Vec) }
      else { g with diss := fun _ => (0 : Vec) }).diss x = 0 := by
    cases random <;> exact power_zero x
  rw [this, zero_sub]
  rfl

theorem forces_rand [Fintype ι] (s : Sys ι P) (g : Dpd ι) (x : ι → Vec) :
    power (g.forces kind q G true s).rand x =
      noise G (fun ab => g.sigma * wt kind q g s ab * along q s x ab) g.drawn (close q g s) := by
  unfold Dpd.forces
  refine ((fold_power kind G true s x g (q.pairs s.list)
    { g with diss := fun _ => 0, rand := fun _ => 0 } ⟨rfl, rfl, rfl, rfl, rfl, rfl⟩).2).trans ?_
  simp only [if_true]
  rw [power_zero, zero_add]
  rfl

theorem forces_keep [Fintype ι] (s : Sys ι P) (g : Dpd ι) (x : ι → Vec) :
    power (g.forces kind q G false s).rand x = power g.rand x := by
  unfold Dpd.forces
  refine ((fold_power kind G false s x g (q.pairs s.list)
    { g with diss := fun _ => 0 } ⟨rfl, rfl, rfl, rfl, rfl, rfl⟩).2).trans ?_
  simp

/-! ### Momentum -/

theorem along_const (s : Sys ι P) (c : Vec) (ab : ι × ι) : along q s (fun _ => c) ab = 0 := by
  simp [along, dot]

theorem noise_zero (c : ι × ι → ℝ) (hc : ∀ ab, c ab = 0) (l : List (ι × ι)) :
    ∀ d, noise G c d l = 0 := by
  induction l with
  | nil => intro d; rfl
  | cons ab l ih => intro d; simp [noise, hc, ih]

/-- Forces that do no work when all atoms move together add up to zero. -/
theorem sum_of_power [Fintype ι] {f : ι → Vec} (h : ∀ c : Vec, power f (fun _ => c) = 0) :
    ∑ i, f i = 0 := by
  funext j
  have := h (Pi.single j 1)
  unfold power at this
  rw [Finset.sum_apply]
  fin_cases j <;> simpa [dot] using this

/-- The forces of the integrator add up to zero. -/
structure Balanced [Fintype ι] (g : Dpd ι) : Prop where
  diss : ∑ i, g.diss i = 0
  rand : ∑ i, g.rand i = 0

theorem forces_balanced [Fintype ι] (s : Sys ι P) (g : Dpd ι) :
    Balanced (g.forces kind q G true s) := by
  constructor
  · refine sum_of_power fun c => ?_
    rw [forces_diss, List.sum_eq_zero, neg_zero]
    intro t ht
    obtain ⟨ab, -, rfl⟩ := List.mem_map.1 ht
    rw [along_const, mul_zero]
  · refine sum_of_power fun c => ?_
    rw [forces_rand, noise_zero]
    intro ab
    rw [along_const, mul_zero]

theorem forces_balanced' [Fintype ι] (s : Sys ι P) {g : Dpd ι} (h : Balanced g) :
    Balanced (g.forces kind q G false s) := by
  constructor
  · refine sum_of_power fun c => ?_
    rw [forces_diss, List.sum_eq_zero, neg_zero]
    intro t ht
    obtain ⟨ab, -, rfl⟩ := List.mem_map.1 ht
    rw [along_const, mul_zero]
  · refine sum_of_power fun c => ?_
    rw [forces_keep]
    have := h.rand
    unfold power
    have e : ∀ j, ∑ i, g.rand i j = 0 := fun j => by
      have := congrFun this j
      rwa [Finset.sum_apply] at this
    simp only [dot, Finset.sum_add_distrib, ← Finset.sum_mul, e]
    simp

theorem Dpd.step1_eq (hw : w.Complete) (g : Dpd ι) (s : Sys ι P) :
    g.step1 w s = { s with
      vel := fun i => s.vel i + g.pref (w.typ i) • (s.force i + g.diss i + g.rand i)
      pos := fun i => s.pos i + g.dt •
        (s.vel i + g.pref (w.typ i) • (s.force i + g.diss i + g.rand i)) } := by
  unfold Dpd.step1
  rw [each_eq' (h := fun i t => (t.1 + g.dt • (t.2.1 + g.pref (w.typ i) • (t.2.2 + g.diss i + g.rand i)),
    t.2.1 + g.pref (w.typ i) • (t.2.2 + g.diss i + g.rand i), t.2.2)) hw.nodup
    (fun s i => by simp [Sys.set])]
  simp [Sys.mapOn, hw.all]

theorem Dpd.step2_eq (hw : w.Complete) (g : Dpd ι) (s : Sys ι P) :
    g.step2 w s = { s with
      vel := fun i => s.vel i + g.pref (w.typ i) • (s.force i + g.diss i + g.rand i) } := by
  unfold Dpd.step2
  rw [each_eq' (h := fun i t => (t.1, t.2.1 + g.pref (w.typ i) • (t.2.2 + g.diss i + g.rand i), t.2.2))
    hw.nodup (fun s i => by simp [Sys.set])]
  simp [Sys.mapOn, hw.all]

/-- Half a step with forces that add up to zero. -/
theorem momentum_half [Fintype ι] {m c : ι → ℝ} {h : ℝ} (hc : ∀ i, m i * c i = h) {v f d r : ι → Vec}
    (hf : ∑ i, f i = 0) (hd : ∑ i, d i = 0) (hr : ∑ i, r i = 0) :
    momentum m (fun i => v i + c i • (f i + d i + r i)) = momentum m v := by
  unfold momentum
  simp only [smul_add, Finset.sum_add_distrib, smul_smul, hc, ← Finset.smul_sum, hf, hd, hr]
  simp

theorem calculateForces_sum [Fintype ι] (hw : w.Complete) (h0 : ∀ l p, ∑ i, w.forces l p i = 0)
    (s : Sys ι P) : ∑ i, (calculateForces w s).force i = 0 := by
  unfold calculateForces
  rw [addForces_eq hw]
  show ∑ i, ((refresh w (setZeroForces w s)).force i + _) = 0
  rw [(refresh_vel hw _).2, setZeroForces_eq hw]
  simp only [zero_add]
  exact h0 _ _

/-- What is known during a run. -/
structure Keeps [Fintype ι] (w : World ι P) (p : Vec) (x : Dpd ι × Sys ι P) : Prop where
  balanced : Balanced x.1
  forces : ∑ i, x.2.force i = 0
  pref : ∃ h : ℝ, ∀ i, w.m i * x.1.pref (w.typ i) = h
  momentum : Integrate.momentum w.m x.2.vel = p

theorem Keeps.step [Fintype ι] (hw : w.Complete) (h0 : ∀ l p, ∑ i, w.forces l p i = 0) {p : Vec}
    {x : Dpd ι × Sys ι P} (h : Keeps w p x) : Keeps w p (Dpd.step kind w q G x) := by
  obtain ⟨c, hc⟩ := h.pref
  unfold Dpd.step
  simp only
  generalize hs : calculateForces w (x.1.step1 w x.2) = s
  have hf : ∑ i, s.force i = 0 := by rw [← hs]; exact calculateForces_sum hw h0 _
  have hv : Integrate.momentum w.m s.vel = p := by
    rw [← hs, calculateForces_vel hw, Dpd.step1_eq hw]
    rw [← h.momentum]
    exact momentum_half hc h.forces h.balanced.diss h.balanced.rand
  have hb := forces_balanced (q := q) kind G s x.1
  have ha := forces_alike (q := q) kind G true s x.1
  have hs2 := Dpd.step2_eq hw (x.1.forces kind q G true s) s
  refine ⟨forces_balanced' kind G _ hb, ?_, ⟨c, fun i => ?_⟩, ?_⟩
  · rw [hs2]; exact hf
  · rw [(forces_alike (q := q) kind G false _ _).pref, ha.pref]
    exact hc i
  · show Integrate.momentum w.m ((x.1.forces kind q G true s).step2 w s).vel = p
    rw [hs2, ← hv]
    exact momentum_half (h := c) (fun i => by rw [ha.pref]; exact hc i) hf hb.diss hb.rand

theorem Keeps.shift [Fintype ι] (hw : w.Complete) {p : Vec} {x : Dpd ι × Sys ι P} (h : Keeps w p x) :
    Keeps w p (x.1, shiftAtoms w x.2) := by
  rw [shiftAtoms_eq hw]
  exact ⟨h.balanced, h.forces, h.pref, h.momentum⟩

theorem Keeps.mainLoop [Fintype ι] (hw : w.Complete) (h0 : ∀ l p, ∑ i, w.forces l p i = 0) {p : Vec}
    (shifts : ℕ → Bool) (n : ℕ) : ∀ (i : ℕ) {x : Dpd ι × Sys ι P}, Keeps w p x →
      Keeps w p (Integrate.mainLoop w (Dpd.step kind w q G) shifts i n x) := by
  induction n with
  | zero => exact fun i x h => h.shift hw
  | succ n ih =>
    intro i x h
    rw [Integrate.mainLoop]
    refine ih (i + 1) (Keeps.step kind G hw h0 ?_)
    split
    · exact h.shift hw
    · exact h

theorem buildPairList_vel (hw : w.Complete) (s : Sys ι P) : (buildPairList w s).vel = s.vel := by
  rw [buildPairList_eq hw]

/-- C66: a simulation with the thermostat conserves the total momentum if the other forces do,
for any random numbers, any choice of the weight function and any parameters. -/
theorem C66_momentum [Fintype ι] (hw : w.Complete) (ht : ∀ i, w.typ i < w.nType)
    (hm : ∀ i, w.m i ≠ 0) (h0 : ∀ l p, ∑ i, w.forces l p i = 0) (q : Pairs ι P) (T : ℝ)
    (shifts : ℕ → Bool) (n : ℕ) (g : Dpd ι) (s : Sys ι P) :
    ∑ i, w.m i • (Dpd.run kind w q T G shifts n g s).2.vel i = ∑ i, w.m i • s.vel i := by
  refine (Keeps.mainLoop (p := Integrate.momentum w.m s.vel) kind G hw h0 shifts n 0 ?_).momentum
  unfold Dpd.setup
  simp only
  refine ⟨forces_balanced kind G _ _, calculateForces_sum hw h0 _, ⟨0.5 * g.dt, fun i => ?_⟩, ?_⟩
  · rw [(forces_alike (q := q) kind G true _ _).pref]
    show w.m i * prefactors w g.dt g.pref (w.typ i) = _
    unfold prefactors
    rw [pref_eq]
    simp only [ht i, if_true]
    have : w.mass (w.typ i) ≠ 0 := hm i
    unfold World.m
    field_simp
  · rw [calculateForces_vel hw, buildPairList_vel hw, calculateForces_vel hw, shiftAtoms_eq hw]

/-- C66: the dissipative forces never add kinetic energy. -/
theorem C66_dissipation [Fintype ι] (random : Bool) (s : Sys ι P) (g : Dpd ι) (hg : 0 ≤ g.gamma) :
    ∑ i, dot ((g.forces kind q G random s).diss i) (s.vel i) ≤ 0 := by
  have := forces_diss (q := q) kind G random s g s.vel
  unfold power at this
  rw [this, neg_nonpos]
  refine List.sum_nonneg fun t ht => ?_
  obtain ⟨ab, -, rfl⟩ := List.mem_map.1 ht
  rw [show g.gamma * wt kind q g s ab * wt kind q g s ab * along q s s.vel ab * along q s s.vel ab =
    g.gamma * (wt kind q g s ab * along q s s.vel ab) ^ 2 by ring]
  positivity

/-! ### Fluctuations and dissipation -/

/-- Random numbers that are independent and have the standard normal distribution. -/
structure Normals {Ω : Type} [MeasurableSpace Ω] (μ : Measure Ω) (N : Ω → ℕ → ℝ) : Prop where
  law : ∀ k, HasLaw (fun ω => N ω k) (gaussianReal 0 1) μ
  indep : iIndepFun (fun k ω => N ω k) μ

variable {Ω : Type} [MeasurableSpace Ω] {μ : Measure Ω} {N : Ω → ℕ → ℝ}

theorem Normals.memLp (hN : Normals μ N) (k : ℕ) : MemLp (fun ω => N ω k) 2 μ := by
  have h : MemLp (id : ℝ → ℝ) 2 (gaussianReal 0 1) := memLp_id_gaussianReal 2
  rw [← (hN.law k).map_eq] at h
  exact h.comp_of_map (hN.law k).aemeasurable

theorem Normals.cov (hN : Normals μ N) (k l : ℕ) :
    ∫ ω, N ω k * N ω l ∂μ = if k = l then 1 else 0 := by
  have hmean : ∀ k, ∫ ω, N ω k ∂μ = 0 := fun k => by
    rw [(hN.law k).integral_eq]
    exact integral_id_gaussianReal
  split
  case isTrue h =>
    subst h
    have hv := (hN.law k).variance_eq
    rw [variance_id_gaussianReal] at hv
    rw [variance_of_integral_eq_zero (hN.law k).aemeasurable (hmean k)] at hv
    simpa [pow_two] using hv
  case isFalse h =>
    rw [(hN.indep.indepFun h).integral_fun_mul_eq_mul_integral
      (hN.law k).aemeasurable.aestronglyMeasurable
      (hN.law l).aemeasurable.aestronglyMeasurable, hmean, zero_mul]

theorem noise_memLp (hN : Normals μ N) (c : ι × ι → ℝ) (l : List (ι × ι)) :
    ∀ d, MemLp (fun ω => noise (N ω) c d l) 2 μ := by
  induction l with
  | nil => intro d; exact MemLp.zero
  | cons ab l ih => intro d; exact ((hN.memLp d).const_mul _).add (ih (d + 1))

theorem noise_before (hN : Normals μ N) (c : ι × ι → ℝ) (l : List (ι × ι)) :
    ∀ d k, k < d → ∫ ω, N ω k * noise (N ω) c d l ∂μ = 0 := by
  induction l with
  | nil => intro d k _; simp [noise]
  | cons ab l ih =>
    intro d k hk
    have h1 := (hN.memLp k).integrable_mul (hN.memLp d)
    have h2 := (hN.memLp k).integrable_mul (noise_memLp hN c l (d + 1))
    have : (fun ω => N ω k * noise (N ω) c d (ab :: l)) = fun ω =>
        c ab * (N ω k * N ω d) + 1 * (N ω k * noise (N ω) c (d + 1) l) := by
      funext ω; simp only [noise]; ring
    rw [this]
    refine (integral_lin2 h1 h2 (c ab) 1).trans ?_
    simp only [Pi.mul_apply]
    rw [hN.cov, if_neg hk.ne, ih (d + 1) k (by omega)]
    simp

theorem noise_product (hN : Normals μ N) (c c' : ι × ι → ℝ) (l : List (ι × ι)) :
    ∀ d, ∫ ω, noise (N ω) c d l * noise (N ω) c' d l ∂μ = (l.map fun ab => c ab * c' ab).sum := by
  induction l with
  | nil => intro d; simp [noise]
  | cons ab l ih =>
    intro d
    have h1 := (hN.memLp d).integrable_mul (hN.memLp d)
    have h2 := (hN.memLp d).integrable_mul (noise_memLp hN c' l (d + 1))
    have h3 := (hN.memLp d).integrable_mul (noise_memLp hN c l (d + 1))
    have h4 := (noise_memLp hN c l (d + 1)).integrable_mul (noise_memLp hN c' l (d + 1))
    have : (fun ω => noise (N ω) c d (ab :: l) * noise (N ω) c' d (ab :: l)) = fun ω =>
        ((c ab * c' ab) * (N ω d * N ω d) + c ab * (N ω d * noise (N ω) c' (d + 1) l)) +
        (c' ab * (N ω d * noise (N ω) c (d + 1) l) +
          1 * (noise (N ω) c (d + 1) l * noise (N ω) c' (d + 1) l)) := by
      funext ω; simp only [noise]; ring
    rw [this]
    refine (integral_lin4 h1 h2 h3 h4 _ _ _ _).trans ?_
    simp only [Pi.mul_apply]
    rw [hN.cov, if_pos rfl, noise_before hN c' l _ _ (by omega), noise_before hN c l _ _ (by omega),
      ih (d + 1)]
    simp

/-- C66: the covariance of the random forces is `2 T / dt` times the friction: for any
velocities `x` and `y`, the mean product of the powers of the random forces is determined by
the power at `x` of the dissipative forces of atoms with the velocities `y`. -/
theorem C66_fluctuation_dissipation [Fintype ι] (hN : Normals μ N) (w : World ι P) (q : Pairs ι P)
    {T : ℝ} (hT : 0 ≤ T) (g : Dpd ι) (hg : 0 ≤ g.gamma) (hdt : 0 < g.dt) (s : Sys ι P)
    (x y : ι → Vec) :
    ∫ ω, (∑ i, dot (((g.constants w T).forces kind q (N ω) true s).rand i) (x i)) *
        (∑ i, dot (((g.constants w T).forces kind q (N ω) true s).rand i) (y i)) ∂μ =
      -(2 * T / g.dt) * ∑ i, dot (((g.constants w T).forces kind q G false
        { s with vel := y }).diss i) (x i) := by
  have hr : ∀ (x : ι → Vec) ω, ∑ i, dot (((g.constants w T).forces kind q (N ω) true s).rand i) (x i) =
      noise (N ω) (fun ab => (g.constants w T).sigma * wt kind q (g.constants w T) s ab * along q s x ab)
        g.drawn (close q (g.constants w T) s) := fun x ω =>
    forces_rand kind (N ω) s (g.constants w T) x
  simp only [hr]
  rw [noise_product hN]
  have hd := forces_diss (q := q) kind G false { s with vel := y } (g.constants w T) x
  unfold power at hd
  rw [hd, mul_neg, neg_mul, neg_neg, ← List.sum_map_mul_left]
  congr 1
  refine List.map_congr_left fun ab _ => ?_
  have hσ : (g.constants w T).sigma * (g.constants w T).sigma = 2 * g.gamma * T / g.dt := by
    show Real.sqrt _ * Real.sqrt _ = _
    rw [Real.mul_self_sqrt (by positivity)]
    norm_num
  have e1 : wt kind q (g.constants w T) { s with vel := y } ab = wt kind q (g.constants w T) s ab := rfl
  have e2 : ∀ x, along q { s with vel := y } x ab = along q s x ab := fun _ => rfl
  have e3 : (g.constants w T).gamma = g.gamma := rfl
  have e4 : ({ s with vel := y } : Sys ι P).vel = y := rfl
  rw [e1, e2, e2, e3, e4]
  rw [show (g.constants w T).sigma * wt kind q (g.constants w T) s ab * along q s x ab *
    ((g.constants w T).sigma * wt kind q (g.constants w T) s ab * along q s y ab) =
    ((g.constants w T).sigma * (g.constants w T).sigma) * (wt kind q (g.constants w T) s ab *
      wt kind q (g.constants w T) s ab * along q s x ab * along q s y ab) by ring, hσ]
  ring

/-! ### A case that meets the hypotheses -/

/-- Two atoms that form a pair. -/
noncomputable def duo : Pairs (Fin 2) Unit where
  pairs _ := [(0, 1)]
  distanceSq a b := (normSq (a - b), a - b)

/-- Two atoms of different masses without other forces. -/
def duoWorld : World (Fin 2) Unit where
  atoms := [0, 1]
  typ i := i
  nType := 2
  mass t := t + 1
  shift v := v
  isCurrent _ _ := true
  build _ _ := ()
  forces _ _ _ := 0

noncomputable def duoDpd : Dpd (Fin 2) where
  dt := 1 / 100
  cutoff := 2
  gamma := 1
  temperature := 0
  sigma := 0
  cutoffSq := 0
  pref _ := 0
  diss _ := 0
  rand _ := 0
  drawn := 0

/-- The atoms at unit distance, the first one moving towards the second. -/
def duoSys : Sys (Fin 2) Unit where
  pos i := ![i, 0, 0]
  vel i := ![1 - i, 0, 0]
  force _ := 0
  list := ()

theorem duo_diss : ∑ i, dot (((duoDpd.constants duoWorld 3).forces 0 duo (fun _ => 0) false duoSys).diss i)
    (duoSys.vel i) = -1 := by
  have h := forces_diss (q := duo) 0 (fun _ => 0) false duoSys (duoDpd.constants duoWorld 3) duoSys.vel
  unfold power at h
  rw [h]
  have hd : normSq (duoSys.pos 0 - duoSys.pos 1) = 1 := by
    simp [normSq, duoSys]
  have hc : close duo (duoDpd.constants duoWorld 3) duoSys = [(0, 1)] := by
    unfold close
    rw [show duo.pairs duoSys.list = [(0, 1)] from rfl, List.filter_cons_of_pos]
    · rfl
    · show decide (normSq (duoSys.pos 0 - duoSys.pos 1) < (2 : ℝ) * 2) = true
      rw [hd]
      norm_num
  have ha : along duo duoSys duoSys.vel (0, 1) = -1 := by
    unfold along unit
    show dot _ (fun j => (duoSys.pos 0 - duoSys.pos 1) j / Real.sqrt (normSq (duoSys.pos 0 - duoSys.pos 1))) = -1
    rw [hd]
    simp [dot, duoSys]
  have hwt : wt 0 duo (duoDpd.constants duoWorld 3) duoSys (0, 1) = 1 := by
    simp [wt, weight]; norm_num
  rw [hc]
  simp only [List.map_cons, List.map_nil, List.sum_cons, List.sum_nil, ha, hwt]
  show -(1 * 1 * 1 * -1 * -1 + 0 : ℝ) = -1
  norm_num

/-- The random forces of two atoms at temperature 3. -/
example : ∃ (Ω : Type) (_ : MeasurableSpace Ω) (μ : Measure Ω) (N : Ω → ℕ → ℝ), Normals μ N ∧
    ∫ ω, (∑ i, dot (((duoDpd.constants duoWorld 3).forces 0 duo (N ω) true duoSys).rand i)
      (duoSys.vel i)) * (∑ i, dot (((duoDpd.constants duoWorld 3).forces 0 duo (N ω) true duoSys).rand i)
      (duoSys.vel i)) ∂μ = 600 := by
  obtain ⟨Ω, m, μ, X, -, hX, hi, hp⟩ := exists_iid ℕ (gaussianReal 0 1)
  have hN : Normals μ fun ω k => X k ω := ⟨hX, hi⟩
  refine ⟨Ω, m, μ, _, hN, ?_⟩
  rw [C66_fluctuation_dissipation 0 (fun _ => 0) hN duoWorld duo (by norm_num) duoDpd
    (by simp [duoDpd]) (by simp [duoDpd]) duoSys duoSys.vel duoSys.vel]
  refine (congrArg _ duo_diss).trans ?_
  simp [duoDpd]
  norm_num

/-- The momentum of the two atoms is conserved. -/
example (G : ℕ → ℝ) (n : ℕ) :
    ∑ i, duoWorld.m i • (Dpd.run 0 duoWorld duo 3 G (fun _ => true) n duoDpd duoSys).2.vel i =
      ![1, 0, 0] := by
  rw [C66_momentum 0 G ⟨by simp [duoWorld], fun i => by fin_cases i <;> simp [duoWorld]⟩
    (fun i => i.isLt) (fun i => by simp only [World.m, duoWorld]; positivity) (fun _ _ => by simp [duoWorld])]
  funext j
  fin_cases j <;> simp [duoWorld, duoSys, World.m]

/-- **C66, range.** Pairs beyond the cutoff exert no force of the thermostat.  Within the
cutoff the weight is positive, at most one, and does not grow with the distance; it is one
for the first type, and vanishes at the cutoff for the others. -/
theorem C66_range (kind : ℕ) {c r : ℝ} (hc : 0 < c) (hr : 0 ≤ r) (hrc : r < c) :
    0 < weight kind c (c * c) r (r * r) ∧ weight kind c (c * c) r (r * r) ≤ 1 ∧
    (∀ r', r ≤ r' → weight kind c (c * c) r' (r' * r') ≤ weight kind c (c * c) r (r * r)) ∧
    (kind = 0 → weight kind c (c * c) r (r * r) = 1) ∧
    (kind ≠ 0 → weight kind c (c * c) c (c * c) = 0) ∧
    ∀ (q : Pairs ι P) (G : ℕ → ℝ) (random : Bool) (s : Sys ι P) (g : Dpd ι) (ab : ι × ι),
      g.cutoffSq ≤ (q.distanceSq (s.pos ab.1) (s.pos ab.2)).1 →
      Dpd.pair kind q G random s g ab = g := by
  have h1 : (1.0 : ℝ) = 1 := by norm_num
  have hq : r / c < 1 := (div_lt_one hc).2 hrc
  have hq0 : 0 ≤ r / c := div_nonneg hr hc.le
  have e : r * r / (c * c) = r / c * (r / c) := by rw [div_mul_div_comm]
  refine ⟨?_, ?_, fun r' hr' => ?_, ?_, ?_, fun q G random s g ab h => ?_⟩
  · unfold weight
    rw [h1]
    split
    · norm_num
    · split
      · linarith
      · rw [e]; nlinarith
  · unfold weight
    rw [h1]
    split
    · norm_num
    · split
      · linarith
      · rw [e]; nlinarith
  · have h2 : r / c ≤ r' / c := div_le_div_of_nonneg_right hr' hc.le
    have e' : r' * r' / (c * c) = r' / c * (r' / c) := by rw [div_mul_div_comm]
    unfold weight
    rw [h1]
    split
    · norm_num
    · split
      · linarith
      · rw [e, e']; nlinarith
  · rintro rfl
    unfold weight
    rw [h1]
    simp
  · intro hk
    unfold weight
    rw [h1, if_neg hk]
    split
    · rw [div_self hc.ne', sub_self]
    · rw [div_self (mul_pos hc hc).ne', sub_self]
  · unfold Dpd.pair
    simp only
    rw [if_neg (not_lt.2 h)]

end Verif.Thermo
