/-
C43: molecular dynamics at constant energy is time reversible and conserves
momentum; the thermostat.
-/
import Verif.Integrate.Pairs
import Verif.Integrate.Thermostat
import Verif.Integrate.Volume
import Verif.Integrate.Gauss

set_option autoImplicit false

namespace Verif.Integrate

open Verif.Boundary Verif.McCellList Verif.McPairList Verif.McCell

variable {N : ℕ} {y : PairSystem N}

/-! ### Forces sum to zero -/

/-- Pair forces sum to zero. -/
theorem field_sum (ok : y.OK) (p : Fin N → Vec) : ∑ i, y.field p i = ∑ i, y.other p i := by
  classical
  unfold PairSystem.field
  rw [Finset.sum_add_distrib]
  suffices h : ∀ S : Vec, S = ∑ i : Fin N, ∑ j : Fin N, (if i ≠ j ∧ ¬ y.masked i j then
      y.one (y.typ i) (y.typ j) (nearest y.box.lengths (p i - p j)) else 0) → S = 0 by
    have e := h _ rfl
    refine Eq.trans (congrArg₂ _ (Eq.trans ?_ e) rfl) (zero_add _)
    refine Finset.sum_congr rfl fun i _ => Finset.sum_congr rfl fun j _ => ?_
    split_ifs <;> rfl
  intro S hS
  have h2 : S = -S := by
    conv_lhs => rw [hS, Finset.sum_comm]
    rw [hS, ← Finset.sum_neg_distrib]
    refine Finset.sum_congr rfl fun i _ => ?_
    rw [← Finset.sum_neg_distrib]
    refine Finset.sum_congr rfl fun j _ => ?_
    by_cases h : i ≠ j ∧ ¬ y.masked i j
    · rw [if_pos h, if_pos ⟨h.1.symm, fun h' => h.2 ((ok.mask _ _).1 h')⟩, ← nearest_neg ok,
        neg_sub]
    · rw [if_neg h, if_neg (fun h' => h ⟨h'.1.symm, fun hm => h'.2 ((ok.mask _ _).1 hm)⟩)]
      simp
  funext a
  have := congrFun h2 a
  simp only [Pi.neg_apply, Pi.zero_apply] at this ⊢
  linarith

/-! ### Sufficient conditions -/

theorem one_bound (ok : y.OK) {K : ℝ} (hK : ∀ x t t', |y.forceOverR x t t'| ≤ K) (t t' : ℕ) (v : Vec)
    (j : Fin 3) : |y.one t t' v j| ≤ K * y.rc := by
  have h0 : 0 ≤ K := (abs_nonneg _).trans (hK 0 0 0)
  unfold PairSystem.one
  split
  · rename_i h
    rw [Pi.smul_apply, smul_eq_mul, abs_mul]
    exact mul_le_mul (hK _ _ _) (comp_normSq (h.trans_le (ok.cut t t')) ok.rc j).le (abs_nonneg _) h0
  · simp only [Pi.zero_apply, abs_zero]
    exact mul_nonneg h0 ok.rc

/-- A bound of the forces. -/
theorem field_bound (ok : y.OK) {K O : ℝ} (hK : ∀ x t t', |y.forceOverR x t t'| ≤ K)
    (hO : ∀ p i j, |y.other p i j| ≤ O) (p : Fin N → Vec) (i : Fin N) (j : Fin 3) :
    |y.field p i j| ≤ N * (K * y.rc) + O := by
  unfold PairSystem.field
  rw [Pi.add_apply, Finset.sum_apply]
  refine (abs_add_le _ _).trans (add_le_add ?_ (hO p i j))
  refine (Finset.abs_sum_le_sum_abs _ _).trans ?_
  refine (Finset.sum_le_card_nsmul _ _ (K * y.rc) fun k _ => ?_).trans (le_of_eq (by simp))
  split
  · exact one_bound ok hK _ _ _ j
  · simp only [Pi.zero_apply, abs_zero]
    exact mul_nonneg ((abs_nonneg _).trans (hK 0 0 0)) ok.rc

/-- The velocity of an atom after some steps, if the forces are bounded. -/
theorem verlet_bound {ι : Type} {m : ι → ℝ} {F : (ι → Vec) → ι → Vec} {dt B V : ℝ} (hdt : 0 ≤ dt)
    (hB : ∀ p i j, |F p i j| / m i ≤ B) (hm : ∀ i, 0 < m i) {z : Phase ι}
    (hV : ∀ i j, |z.2 i j| ≤ V) (n : ℕ) (i : ι) (j : Fin 3) :
    |((verlet m F dt)^[n] z).2 i j| ≤ V + n * (dt * B) := by
  induction n generalizing i j with
  | zero => simpa using hV i j
  | succ n ih =>
    rw [Function.iterate_succ_apply']
    set x := (verlet m F dt)^[n] z with hx
    have hk : ∀ p, |(dt / 2 / m i) * F p i j| ≤ dt / 2 * B := fun p => by
      rw [abs_mul, abs_div, abs_of_pos (hm i), abs_of_nonneg (by linarith), div_mul_eq_mul_div,
        mul_div_assoc]
      exact mul_le_mul_of_nonneg_left (hB p i j) (by linarith)
    have e : (verlet m F dt x).2 i j = x.2 i j + (dt / 2 / m i) * F x.1 i j +
        (dt / 2 / m i) * F (drift dt (kick m F (dt / 2) x)).1 i j := rfl
    rw [e]
    have h1 := ih i j
    have h2 := hk x.1
    have h3 := hk (drift dt (kick m F (dt / 2) x)).1
    have a1 := abs_add_le (x.2 i j + (dt / 2 / m i) * F x.1 i j)
      ((dt / 2 / m i) * F (drift dt (kick m F (dt / 2) x)).1 i j)
    have a2 := abs_add_le (x.2 i j) ((dt / 2 / m i) * F x.1 i j)
    push_cast
    linarith

/-- With fewer atoms than a cell can hold, no cell is ever filled. -/
theorem fits_of_few (h : N < y.cellCap) (z : Fin N → Vec) : y.Fits z := by
  intro q _ _ s0 _ c T _
  exact lt_of_le_of_lt ((Finset.card_le_univ T).trans (by simp)) h

/-- Bounded forces: no atom moves far in one step. -/
theorem admissible_of_bound {B V ρ dt : ℝ} (hdt : 0 ≤ dt) {m : Fin N → ℝ} (hm : ∀ i, 0 < m i)
    (hB0 : 0 ≤ B) (hB : ∀ p i j, |y.field p i j| / m i ≤ B) {z : Phase (Fin N)}
    (hV : ∀ i j, |z.2 i j| ≤ V) (n : ℕ) (hn : dt * (V + n * (dt * B)) ≤ ρ)
    (hfit : ∀ z, y.Fits z) : Admissible (y.adm ρ) m y.field dt n z := by
  intro k hk
  refine ⟨fun i j => ?_, hfit _⟩
  have h1 := verlet_bound hdt hB hm hV k i j
  set x := (verlet m y.field dt)^[k] z with hx
  have e : displacement m y.field dt x i j = dt * (x.2 i j + (dt / 2 / m i) * y.field x.1 i j) := rfl
  rw [e, abs_mul, abs_of_nonneg hdt]
  refine le_trans (mul_le_mul_of_nonneg_left ?_ hdt) hn
  have hk' : |(dt / 2 / m i) * y.field x.1 i j| ≤ dt / 2 * B := by
    rw [abs_mul, abs_div, abs_of_pos (hm i), abs_of_nonneg (by linarith), div_mul_eq_mul_div,
      mul_div_assoc]
    exact mul_le_mul_of_nonneg_left (hB x.1 i j) (by linarith)
  have h2 := abs_add_le (x.2 i j) ((dt / 2 / m i) * y.field x.1 i j)
  have h3 : ((k : ℝ) + 1) ≤ n := by exact_mod_cast hk
  have h4 : 0 ≤ dt * B := mul_nonneg hdt hB0
  nlinarith

/-! ### The reversed trajectory -/

/-- The reversed trajectory has the reversed displacements. -/
theorem admissible_reverse {ρ dt : ℝ} {m : Fin N → ℝ} {n : ℕ} {z : Phase (Fin N)}
    (hz : y.Fits z.1) (h : Admissible (y.adm ρ) m y.field dt n z) :
    Admissible (y.adm ρ) m y.field dt n (flip ((verlet m y.field dt)^[n] z)) := by
  intro k hk
  set f := verlet m y.field dt with hf
  -- the point reached by `k` reversed steps
  have e1 : f^[k] (flip (f^[n] z)) = flip (f^[n - k] z) := by
    have : f^[n] z = f^[k] (f^[n - k] z) := by
      rw [← Function.iterate_add_apply]
      congr 2
      omega
    rw [this]
    exact iterate_flip (verlet_flip m y.field dt) k _
  set x := f^[n - k - 1] z with hx
  have e2 : f^[n - k] z = f x := by
    rw [hx, ← Function.iterate_succ_apply' f]
    congr 2
    omega
  rw [e1, e2]
  have e3 : displacement m y.field dt (flip (f x)) = fun i => -displacement m y.field dt x i := by
    have : kick m y.field (dt / 2) (flip (f x)) =
        flip (drift dt (kick m y.field (dt / 2) x)) := by
      rw [hf]
      unfold verlet
      rw [kick_flip]
    unfold displacement
    rw [this]
    funext i
    exact smul_neg _ _
  have e4 : (flip (f x)).1 = fun i => x.1 i + displacement m y.field dt x i := rfl
  have had : y.adm ρ x.1 (displacement m y.field dt x) := h _ (by omega)
  rw [e3]
  refine ⟨fun i j => ?_, ?_⟩
  · change |(-displacement m y.field dt x i) j| ≤ ρ
    rw [Pi.neg_apply, abs_neg]
    exact had.1 i j
  · have : (fun i => (flip (f x)).1 i + -displacement m y.field dt x i) = x.1 := by
      rw [e4]
      funext i
      dsimp only
      abel
    rw [this]
    by_cases h0 : n - k - 1 = 0
    · rw [hx, h0]
      exact hz
    · have := (h (n - k - 2) (by omega)).2
      have e5 : x = f (f^[n - k - 2] z) := by
        rw [hx, ← Function.iterate_succ_apply' f]
        congr 2
        omega
      rw [e5]
      exact this

/-! ### C43 -/

/-- The state at the beginning of a simulation: every atom less than a period away
from the primary cell, no pair list made so far. -/
structure Start (y : PairSystem N) (s : Sys (Fin N) (Option PL)) : Prop where
  near : ∀ i, NearCell y.box.lengths (s.pos i)
  fits : y.Fits s.pos
  fresh : ∀ st, s.list = some st → st.builds = 0

theorem Start.safe (ok : y.OK) {ρ : ℝ} (hρ : ∀ j, y.skin + ρ < y.box.lengths j)
    {s : Sys (Fin N) (Option PL)} (h : Start y s) :
    (shiftAtoms y.world s).Safe y.world y.cell y.usable := by
  rw [shiftAtoms_eq (ok.exact hρ).toComplete]
  have hin : ∀ i, InCell y.box.lengths (y.box.shift (s.pos i)) := fun i =>
    (C23_ortho_shift ok.box _ (h.near i)).1
  constructor
  · intro hc
    exfalso
    cases hl : s.list with
    | none => simp [PairSystem.world, hl] at hc
    | some st =>
      simp only [PairSystem.world, hl, decide_eq_true_eq] at hc
      exact hc.1 (h.fresh st hl)
  · have e : (fun i => y.world.shift (y.world.shift (s.pos i))) = fun i => y.box.shift (s.pos i) := by
      funext i
      exact congrArg Prod.fst (C23_ortho_shift_fix ok.box (y.box.shift (s.pos i)) 0 (hin i))
    change (fun i => y.world.shift (y.world.shift (s.pos i))) ∈ y.cell
    rw [e]
    refine ⟨hin, h.fits _ (fun i => ?_) hin⟩
    exact (ok.exact hρ).shift (s.pos i)

/-- The reversal of all velocities, then another simulation. -/
def reverse (s : Sys (Fin N) (Option PL)) : Sys (Fin N) (Option PL) :=
  { s with vel := fun i => -s.vel i }

/-- **C43.** A simulation of `n` steps with any sampling of analyzers, any number of
atoms, any interaction with a cutoff: the velocities are those of the velocity
Verlet algorithm for the sum of all pair forces at nearest images, the positions
are periodic images of those of the algorithm. -/
theorem C43_simulate (ok : y.OK) {ρ : ℝ} (hρ : ∀ j, y.skin + ρ < y.box.lengths j) (g : Nve)
    (shifts : ℕ → Bool) (n : ℕ) {s : Sys (Fin N) (Option PL)} (hs : Start y s)
    (had : Admissible (y.adm ρ) y.world.m y.field g.dt n (s.pos, s.vel)) :
    let s' := (simulate y.world (fun _ g => g.setup y.world) (Nve.next y.world) shifts n g s).2
    let z := (verlet y.world.m y.field g.dt)^[n] (s.pos, s.vel)
    (∀ i, ∃ k : IVec, s'.pos i = z.1 i + latVec y.box.lengths k) ∧ s'.vel = z.2 ∧
      s'.force = y.field z.1 := by
  intro s' z
  have h := Nve.simulate_rep (ok.exact hρ) g shifts n (hs.safe ok hρ) had
  refine ⟨fun i => ?_, h.vel, h.force⟩
  obtain ⟨k, hk⟩ := h.pos i
  exact ⟨k, by rw [← hk]; abel⟩

/-- **C43, time reversal.** `n` steps, reversal of the velocities, `n` steps: every
atom is at a periodic image of its first position, with its velocity reversed. -/
theorem C43_reversible (ok : y.OK) {ρ : ℝ} (hρ : ∀ j, y.skin + ρ < y.box.lengths j) (g : Nve)
    (shifts shifts' : ℕ → Bool) (n : ℕ) {s : Sys (Fin N) (Option PL)} (hs : Start y s)
    (had : Admissible (y.adm ρ) y.world.m y.field g.dt n (s.pos, s.vel)) :
    let run := fun shifts s =>
      (simulate y.world (fun _ g => g.setup y.world) (Nve.next y.world) shifts n g s).2
    let s' := run shifts' (reverse (run shifts s))
    (∀ i, ∃ k : IVec, s'.pos i = s.pos i + latVec y.box.lengths k) ∧
      ∀ i, s'.vel i = -s.vel i := by
  intro run s'
  have hw := ok.exact hρ
  have h := Nve.simulate_rep hw g shifts n (hs.safe ok hρ) had
  set s1 := run shifts s with hs1
  set z := (verlet y.world.m y.field g.dt)^[n] (s.pos, s.vel) with hz
  have hrev := admissible_reverse hs.fits had
  -- the second simulation starts from the images of the reversed state
  have h0 : Rep (lattice y.box.lengths) y.field y.usable
      (calculateForces y.world (shiftAtoms y.world (reverse s1))) (flip z) := by
    have := start_rep hw (s := reverse s1) (h.safe hw fun i => -s1.vel i)
    refine ⟨this.list, ?_, ?_, ?_⟩
    · exact h.pos.trans this.pos
    · rw [this.vel]
      funext i
      change -s1.vel i = -z.2 i
      rw [show s1.vel = z.2 from h.vel]
    · rw [this.force]
      exact hw.periodic _ _ h.pos
  have h' := (Nve.mainLoop_rep hw (Nve.setup_ready hw g) shifts' n 0 h0 hrev).2
  have e : (verlet y.world.m y.field g.dt)^[n] (flip z) = flip (s.pos, s.vel) :=
    iterate_flip (verlet_flip _ _ _) n _
  have eg : (g.setup y.world).dt = g.dt := rfl
  rw [eg, e] at h'
  refine ⟨fun i => ?_, fun i => congrFun h'.vel i⟩
  obtain ⟨k, hk⟩ := h'.pos i
  refine ⟨k, ?_⟩
  rw [← hk]
  change s'.pos i = s.pos i + (s'.pos i - s.pos i)
  abel

/-- **C43, momentum.** If the forces of the other potentials sum to zero, the total
momentum is conserved. -/
theorem C43_momentum (ok : y.OK) {ρ : ℝ} (hρ : ∀ j, y.skin + ρ < y.box.lengths j) (g : Nve)
    (shifts : ℕ → Bool) (n : ℕ) {s : Sys (Fin N) (Option PL)} (hs : Start y s)
    (had : Admissible (y.adm ρ) y.world.m y.field g.dt n (s.pos, s.vel))
    (hm : ∀ t, y.mass t ≠ 0) (hO : ∀ p, ∑ i, y.other p i = 0) :
    ∑ i, y.mass (y.typ i) • (simulate y.world (fun _ g => g.setup y.world) (Nve.next y.world)
      shifts n g s).2.vel i = ∑ i, y.mass (y.typ i) • s.vel i := by
  have h := (C43_simulate ok hρ g shifts n hs had).2.1
  rw [h]
  have hm' : ∀ i, y.world.m i ≠ 0 := fun i => hm _
  have hF : ∀ p, ∑ i, y.field p i = 0 := fun p => by rw [field_sum ok, hO]
  have : ∀ k, momentum y.world.m ((verlet y.world.m y.field g.dt)^[k] (s.pos, s.vel)).2 =
      momentum y.world.m s.vel := by
    intro k
    induction k with
    | zero => rfl
    | succ k ih => rw [Function.iterate_succ_apply', momentum_verlet _ hm' _ hF, ih]
  exact this n

/-- **C43, one step**, for any forces whatsoever (no boundary, no pair list): a step,
reversal of the velocities, and a step. -/
theorem C43_one_step {ι : Type} (m : ι → ℝ) (F : (ι → Vec) → ι → Vec) (dt : ℝ) (r v : ι → Vec) :
    let z := verlet m F dt (r, v)
    verlet m F dt (z.1, fun i => -z.2 i) = (r, fun i => -v i) :=
  verlet_flip m F dt (r, v)

/-- **C43, thermostat.** A simulation with the Nose-Hoover integrator follows the
reversible algorithm `noseHoover`, started with zero friction. -/
theorem C43_thermostat (ok : y.OK) {ρ : ℝ} (hρ : ∀ j, y.skin + ρ < y.box.lengths j) (T : ℝ) (g : Nh)
    (shifts : ℕ → Bool) (n : ℕ) {s : Sys (Fin N) (Option PL)} (hs : Start y s)
    (had : ThermoAdmissible (y.adm ρ) y.world.m y.field (deviation y.world.m T g.nuT) g.dt n
      ((s.pos, s.vel), 0)) :
    let x := simulate y.world (fun s g => g.setup y.world T s) (Nh.step y.world T) shifts n g s
    let z := (noseHoover y.world.m y.field (deviation y.world.m T g.nuT) g.dt)^[n]
      ((s.pos, s.vel), 0)
    (∀ i, ∃ k : IVec, x.2.pos i = z.1.1 i + latVec y.box.lengths k) ∧ x.2.vel = z.1.2 ∧
      x.1.xi = z.2 := by
  intro x z
  have h := Nh.simulate_rep (ok.exact hρ) T g shifts n (hs.safe ok hρ) had
  refine ⟨fun i => ?_, h.sys.vel, h.xi⟩
  obtain ⟨k, hk⟩ := h.sys.pos i
  exact ⟨k, by rw [← hk]; abel⟩

/-- **C43, thermostat**: the algorithm is reversible, the friction being reversed
with the velocities. -/
theorem C43_thermostat_reversible {ι : Type} [Fintype ι] (m : ι → ℝ) (F : (ι → Vec) → ι → Vec)
    (T nu dt : ℝ) (n : ℕ) (x : ThermoPhase ι) :
    let f := noseHoover m F (deviation m T nu) dt
    f^[n] (flipThermo (f^[n] x)) = flipThermo x :=
  iterate_flip (noseHoover_flip m F _ (deviation_neg m T nu) dt) n x

/-! ### A concrete system -/

/-- Two atoms that repel each other. -/
noncomputable def repelling : PairSystem 2 where
  box := Ortho.default
  typ _ := 0
  nType := 1
  mass _ := 1
  masked _ _ := False
  cutSq _ _ := 1 / 16
  forceOverR _ _ _ := 1
  other _ _ := 0
  rc := 1 / 4
  skin := 1 / 8
  cellCap := 3
  atomCap := 2
  pairCap := 4

theorem repelling_ok : repelling.OK where
  box := .default
  types _ := by simp [repelling]
  rc := by norm_num [repelling]
  half _ := by norm_num [repelling, Ortho.default]
  skin := by norm_num [repelling]
  thin _ := by norm_num [repelling, Ortho.default]
  cut _ _ := by norm_num [repelling]
  symm _ _ := rfl
  fsymm _ _ _ := rfl
  mask _ _ := Iff.rfl
  other _ _ _ := rfl
  atomCap := by norm_num [repelling]
  pairCap := by norm_num [repelling]

/-- Close to each other across the boundary. -/
noncomputable def repellingStart : Sys (Fin 2) (Option PL) where
  pos := ![![1/20, 1/2, 1/2], ![19/20, 1/2, 1/2]]
  vel := ![![0, 0, 0], ![1, 0, 0]]
  force _ := 0
  list := some (alloc 2)

theorem repelling_start : Start repelling repellingStart where
  near i j := by
    fin_cases i <;> fin_cases j <;> norm_num [repelling, repellingStart, Ortho.default]
  fits := fits_of_few (by norm_num [repelling]) _
  fresh st h := by
    simp only [repellingStart, Option.some.injEq] at h
    rw [← h]
    rfl

/-- The time step is 1/10. -/
noncomputable def repellingNve : Nve := ⟨1 / 10, fun _ => 0⟩

theorem repelling_admissible :
    Admissible (repelling.adm (1 / 2)) repelling.world.m repelling.field repellingNve.dt 20
      (repellingStart.pos, repellingStart.vel) := by
  have e : repellingNve.dt = 1 / 10 := rfl
  rw [e]
  refine admissible_of_bound (B := 1 / 2) (V := 1) (by norm_num) (fun _ => ?_) (by norm_num)
    (fun p i j => ?_) (fun i j => ?_) 20 (by norm_num)
    (fits_of_few (by norm_num [repelling]))
  · simp [World.m, PairSystem.world, repelling]
  · have := field_bound repelling_ok (K := 1) (O := 0) (fun _ _ _ => by simp [repelling])
      (fun _ _ _ => by simp [repelling]) p i j
    have hm : repelling.world.m i = 1 := rfl
    rw [hm, div_one]
    refine this.trans ?_
    norm_num [repelling]
  · fin_cases i <;> fin_cases j <;> norm_num [repellingStart]

/-- Non-vacuity: 20 steps of this system satisfy all hypotheses, and the atoms do
exert a force on each other. -/
example : (∀ i, ∃ k : IVec, (simulate repelling.world (fun _ g => g.setup repelling.world)
      (Nve.next repelling.world) (fun i => i % 5 = 0) 20 repellingNve repellingStart).2.pos i =
      ((verlet repelling.world.m repelling.field repellingNve.dt)^[20]
        (repellingStart.pos, repellingStart.vel)).1 i + latVec repelling.box.lengths k) ∧
    repelling.field repellingStart.pos 0 0 = 1 / 10 := by
  refine ⟨(C43_simulate repelling_ok (ρ := 1 / 2) (fun _ => by norm_num [repelling, Ortho.default])
    repellingNve _ 20 repelling_start repelling_admissible).1, ?_⟩
  have r1 : round (-(9 / 10) : ℝ) = -1 := by
    rw [round_eq, Int.floor_eq_iff]
    norm_num
  have en : nearest repelling.box.lengths (repellingStart.pos 0 - repellingStart.pos 1) =
      ![1 / 10, 0, 0] := by
    funext j
    fin_cases j
    · simp only [nearest, repelling, repellingStart, Ortho.default]
      norm_num [r1]
    · simp [nearest, repelling, repellingStart, Ortho.default]
    · simp [nearest, repelling, repellingStart, Ortho.default]
  unfold PairSystem.field
  rw [Fin.sum_univ_two, en]
  simp [repelling, PairSystem.one, normSq]
  norm_num

end Verif.Integrate
