/-
C59: the hybrid MD/MC move restores rejected configurations and samples the
Boltzmann distribution, unless there are links.
-/
import Verif.Integrate.HybridBalance

set_option autoImplicit false

namespace Verif.Integrate

open Verif.Boundary Verif.McCellList Verif.McPairList Verif.McCell Verif.Cpp Verif.Cpp.Out
open Verif.McMoves (metropolis prob prob_metropolis prob_congr metropolis_iff)
open MeasureTheory
open scoped ENNReal

variable {N : ℕ} {y : Hybrid N}

/-- **C59, the move.**  For every state of the program, all deviates, and every
trajectory without excessive displacements: the move ends without error; its
decision is that of the Metropolis rule for the change of the energy (without links) along
the trajectory of velocity Verlet; after rejection every atom is exactly where it
was, and the cell list and the number of accepted moves are unchanged; after acceptance the atoms
are at the images in the primary cell of the final points of the trajectory, and
the cell list holds all of them there. -/
theorem C59_move (ok : y.OK) {ρ : ℝ} (hρ : ∀ j, y.skin + ρ < y.box.lengths j) (x : HState N)
    (hnear : ∀ i, NearCell y.box.lengths (x.sys.pos i)) (hfit : y.Fits x.sys.pos)
    (gs : Fin N → Vec) (u : ℝ)
    (had : Admissible (y.adm ρ) y.world.m y.field x.nve.dt y.nStep (y.start x.sys.pos gs))
    (hmc : y.McFits (y.final x.nve.dt (y.start x.sys.pos gs)).1) :
    let z := y.start x.sys.pos gs
    let z' := y.final x.nve.dt z
    let accept := Real.exp (-(1 / y.temp) * (y.H z' - y.H z)) > 1 ∨
      u < Real.exp (-(1 / y.temp) * (y.H z' - y.H z))
    ∃ x' b, y.move gs u x = Out.ok (x', b) ∧ (b = true ↔ accept) ∧
      x'.nve.dt = x.nve.dt ∧ x'.nAttempt = x.nAttempt + 1 ∧
      (accept → (∀ i, InCell y.box.lengths (x'.sys.pos i)) ∧
        (∀ i, ∃ k : IVec, x'.sys.pos i = z'.1 i + latVec y.box.lengths k) ∧
        y.Holds x'.cells x'.sys.pos ∧ x'.nAccept = x.nAccept + 1) ∧
      (¬ accept → x'.sys.pos = x.sys.pos ∧ x'.cells = x.cells ∧ x'.nAccept = x.nAccept) := by
  intro z z' accept
  obtain ⟨x', e, h1, h2, h3, h4⟩ := hybridMove_eq ok hρ x hnear hfit gs u had hmc
  have hiff := metropolis_iff (Real.exp (-(1 / y.temp) * (y.H z' - y.H z))) u
  refine ⟨x', _, e, hiff, h1, h2, fun h => ?_, fun h => ?_⟩
  · obtain ⟨a, b, c, d⟩ := h3 (hiff.2 h)
    refine ⟨a, fun i => ?_, c, d⟩
    obtain ⟨k, hk⟩ := b i
    exact ⟨k, by rw [← hk]; exact (add_sub_cancel _ _).symm⟩
  · exact h4 (Bool.eq_false_iff.2 fun h' => h (hiff.1 h'))

/-- **C59, detailed balance.**  The probability weight of being in `A` and moving to `B`
by an accepted move is that of being in `B` and moving to `A`; the weights are
Boltzmann factors of the energy without links.  The states `st p`, `st' p` in
which the program is for the positions `p` may differ in everything else: pair
list, velocities, stored energies. -/
theorem C59_balance (ok : y.OK) (hy : y.Meas) {ρ : ℝ} (hρ : ∀ j, y.skin + ρ < y.box.lengths j)
    (dt : ℝ) {st st' : (Fin N → Vec) → HState N}
    (hst : ∀ p, (st p).sys.pos = p ∧ (st p).nve.dt = dt)
    (hst' : ∀ p, (st' p).sys.pos = p ∧ (st' p).nve.dt = dt) {A B : Set (Fin N → Vec)}
    (hA : MeasurableSet A) (hB : MeasurableSet B) :
    y.flow ρ dt st A B = y.flow ρ dt st' B A :=
  flow_balance ok hy hρ dt hst hst' hA hB

/-! ### Links -/

/-- The energy of a point of phase space, with links. -/
noncomputable def Hybrid.fullH (y : Hybrid N) (z : Phase (Fin N)) : ℝ :=
  y.H z + if y.hasLink then y.linkE z.1 else 0

/-- The weight of a state and deviates from which the program starts, times the
probability of acceptance. -/
noncomputable def Hybrid.weighted (y : Hybrid N) (x : HState N) (gs : Fin N → Vec) : ℝ≥0∞ :=
  ENNReal.ofReal (Real.exp (-(1 / y.temp) * y.fullH (y.start x.sys.pos gs))) *
    prob fun u => ∃ x', y.move gs u x = ok (x', true)

/-- The move from `x'` with deviates `gs'` is the reverse of the move from `x` with
deviates `gs`. -/
def Hybrid.Reverse (y : Hybrid N) (x : HState N) (gs : Fin N → Vec) (x' : HState N)
    (gs' : Fin N → Vec) : Prop :=
  y.start x'.sys.pos gs' = y.turn x.nve.dt (y.start x.sys.pos gs) ∧ x'.nve.dt = x.nve.dt

theorem accept_prob (ok : y.OK) {ρ : ℝ} (hρ : ∀ j, y.skin + ρ < y.box.lengths j) {x : HState N}
    {gs : Fin N → Vec} (hg : y.Good ρ x.nve.dt (y.start x.sys.pos gs)) :
    (prob fun u => ∃ x', y.move gs u x = Out.ok (x', true)) =
      ENNReal.ofReal (min 1 (Real.exp (-(1 / y.temp) *
        (y.H (y.turn x.nve.dt (y.start x.sys.pos gs)) - y.H (y.start x.sys.pos gs))))) := by
  have h := prob_move ok hρ rfl gs Set.univ hg
  rw [Set.indicator_of_mem (Set.mem_univ _)] at h
  rw [← h]
  exact prob_congr fun u _ _ => ⟨fun ⟨x', e⟩ => ⟨hg, x', e, Set.mem_univ _⟩,
    fun ⟨_, x', e, _⟩ => ⟨x', e⟩⟩

/-- **C59, links.**  A move and its reverse are balanced if and only if the energies of
the links are the same before and after. -/
theorem C59_links (ok : y.OK) {ρ : ℝ} (hρ : ∀ j, y.skin + ρ < y.box.lengths j) {x x' : HState N}
    {gs gs' : Fin N → Vec} (hg : y.Good ρ x.nve.dt (y.start x.sys.pos gs))
    (hr : y.Reverse x gs x' gs') :
    y.weighted x gs = y.weighted x' gs' ↔
      (y.hasLink = true → y.linkE x'.sys.pos = y.linkE x.sys.pos) := by
  obtain ⟨hr, hdt⟩ := hr
  set z := y.start x.sys.pos gs with hz
  have hg' : y.Good ρ x'.nve.dt (y.start x'.sys.pos gs') := by
    rw [hr, hdt]
    exact hg.turn ok
  have e1 := accept_prob ok hρ hg
  have e2 := accept_prob ok hρ hg'
  rw [hdt, hr, turn_turn ok _ hg.mem] at e2
  unfold Hybrid.weighted
  rw [e1, e2, ← hz, hr]
  set w := y.turn x.nve.dt z with hw
  have hz1 : z.1 = x.sys.pos := rfl
  have hw1 : w.1 = x'.sys.pos := by rw [← hr]; rfl
  have hβ : 0 < 1 / y.temp := one_div_pos.2 ok.temp
  have key : ∀ a b : ℝ, (ENNReal.ofReal (Real.exp (-(1 / y.temp) * (y.H z + a))) *
        ENNReal.ofReal (min 1 (Real.exp (-(1 / y.temp) * (y.H w - y.H z)))) =
      ENNReal.ofReal (Real.exp (-(1 / y.temp) * (y.H w + b))) *
        ENNReal.ofReal (min 1 (Real.exp (-(1 / y.temp) * (y.H z - y.H w))))) ↔ b = a := by
    intro a b
    have hs := McMoves.rate_symm (1 / y.temp) (y.H z) (y.H w)
    unfold McMoves.rate at hs
    have split : ∀ c d, ENNReal.ofReal (Real.exp (-(1 / y.temp) * (c + d))) =
        ENNReal.ofReal (Real.exp (-(1 / y.temp) * d)) *
          ENNReal.ofReal (Real.exp (-(1 / y.temp) * c)) := fun c d => by
      rw [← ENNReal.ofReal_mul (Real.exp_pos _).le, ← Real.exp_add]
      congr 2
      ring
    rw [split, split, mul_assoc, mul_assoc, hs]
    have hne : ENNReal.ofReal (Real.exp (-(1 / y.temp) * y.H w)) *
        ENNReal.ofReal (min 1 (Real.exp (-(1 / y.temp) * (y.H z - y.H w)))) ≠ 0 :=
      mul_ne_zero (ENNReal.ofReal_pos.2 (Real.exp_pos _)).ne'
        (ENNReal.ofReal_pos.2 (lt_min one_pos (Real.exp_pos _))).ne'
    have hnt : ENNReal.ofReal (Real.exp (-(1 / y.temp) * y.H w)) *
        ENNReal.ofReal (min 1 (Real.exp (-(1 / y.temp) * (y.H z - y.H w)))) ≠ ∞ :=
      ENNReal.mul_ne_top ENNReal.ofReal_ne_top ENNReal.ofReal_ne_top
    rw [ENNReal.mul_left_inj hne hnt, ENNReal.ofReal_eq_ofReal_iff (Real.exp_pos _).le
      (Real.exp_pos _).le, Real.exp_eq_exp]
    constructor
    · intro h
      exact (mul_left_cancel₀ (neg_ne_zero.2 hβ.ne') h).symm
    · rintro rfl
      rfl
  unfold Hybrid.fullH
  cases hL : y.hasLink with
  | false => simpa using key 0 0
  | true =>
    simp only [if_true, true_imp_iff, hz1, hw1]
    exact key _ _

/-! ### Concrete systems -/

/-- Two atoms that repel each other; 20 steps. -/
noncomputable def repellingHybrid : Hybrid 2 where
  toPairSystem := repelling
  pairE x _ _ := if x < 1 / 16 then (1 / 16 - x) / 2 else 0
  nRest := 0
  restE _ _ := 0
  hasLink := false
  linkE _ := 0
  temp := 1
  nStep := 20

theorem repellingHybrid_ok : repellingHybrid.OK where
  toOK := repelling_ok
  rcpos := by norm_num [repellingHybrid, repelling]
  range x t t' h := by
    have h' : (1 : ℝ) / 16 ≤ x := h
    simp only [repellingHybrid]
    rw [if_neg (not_lt.2 h')]
  rest _ _ _ _ := rfl
  temp := by norm_num [repellingHybrid]
  masses _ := by norm_num [repellingHybrid, repelling]

theorem repellingHybrid_meas : repellingHybrid.Meas where
  force _ _ := measurable_const
  energy _ _ := by
    refine Measurable.ite measurableSet_Iio ?_ measurable_const
    exact (measurable_const.sub measurable_id).div_const _
  other := measurable_const
  rest _ := measurable_const

/-- A state with given positions; the time step is 1/10. -/
noncomputable def stateAt {N : ℕ} (c : CL) (p : Fin N → Vec) : HState N where
  sys := ⟨p, fun _ => 0, fun _ => 0, some (alloc N)⟩
  nve := ⟨1 / 10, fun _ => 0⟩
  cells := c
  oldPositions := fun _ => 0
  pairMemo := none
  restMemo := fun _ => none
  linkMemo := none
  nAttempt := 0
  nAccept := 0

theorem mcFits_of_few (h : N < y.cellCap) (z : Fin N → Vec) : y.McFits z := by
  intro q _ _ s0 _ c T _
  exact lt_of_le_of_lt ((Finset.card_le_univ T).trans (by simp)) h

theorem repellingHybrid_good {z : Phase (Fin 2)} (hz : z.1 ∈ repellingHybrid.primary)
    (hv : ∀ i j, |z.2 i j| ≤ 1) : repellingHybrid.Good (1 / 2) (1 / 10) z where
  mem := hz
  fits := fits_of_few (by norm_num [repellingHybrid, repelling]) _
  mcFits := mcFits_of_few (by norm_num [repellingHybrid, repelling]) _
  mcFits' := mcFits_of_few (by norm_num [repellingHybrid, repelling]) _
  adm := by
    refine admissible_of_bound (B := 1 / 2) (V := 1) (by norm_num) (fun _ => ?_) (by norm_num)
      (fun p i j => ?_) hv 20 (by norm_num)
      (fits_of_few (by norm_num [repellingHybrid, repelling]))
    · simp [World.m, PairSystem.world, repellingHybrid, repelling]
    · have := field_bound repelling_ok (K := 1) (O := 0) (fun _ _ _ => by simp [repelling])
        (fun _ _ _ => by simp [repelling]) p i j
      have hm : repellingHybrid.world.m i = 1 := rfl
      rw [hm, div_one]
      refine this.trans ?_
      norm_num [repelling]

/-- Non-vacuity of `C59_move`: atoms close to each other across the boundary. -/
example (c : CL) (u : ℝ) : ∃ x' b, repellingHybrid.move (fun _ _ => 1) u (stateAt c repellingStart.pos) =
    Out.ok (x', b) ∧ x'.nAttempt = 1 := by
  have hz : repellingStart.pos ∈ repellingHybrid.primary := by
    intro i j
    fin_cases i <;> fin_cases j <;>
      norm_num [repellingHybrid, repelling, repellingStart, Ortho.default]
  have hg := repellingHybrid_good (z := repellingHybrid.start repellingStart.pos fun _ _ => 1) hz
    (fun i j => by
      have : (repellingHybrid.start repellingStart.pos fun _ _ => 1).2 i j = Real.sqrt (1 / 1) * 1 :=
        rfl
      rw [this]
      norm_num)
  obtain ⟨x', b, e, -, -, h, -⟩ := C59_move repellingHybrid_ok (ρ := 1 / 2)
    (fun _ => by norm_num [repellingHybrid, repelling, Ortho.default])
    (stateAt c repellingStart.pos) repelling_start.near hg.fits (fun _ _ => 1) u hg.adm hg.mcFits'
  exact ⟨x', b, e, h⟩

/-- Non-vacuity of `C59_balance`: the flow is not zero. -/
example (c : CL) : repellingHybrid.flow (1 / 2) (1 / 10) (stateAt c) Set.univ Set.univ ≠ 0 := by
  have ok := repellingHybrid_ok
  obtain ⟨Z, hZ, h⟩ := flow_eq ok repellingHybrid_meas (ρ := 1 / 2)
    (fun _ => by norm_num [repellingHybrid, repelling, Ortho.default]) (1 / 10)
  rw [h (stateAt c) (fun p => ⟨rfl, rfl⟩) _ _ MeasurableSet.univ MeasurableSet.univ]
  refine mul_ne_zero hZ fun h0 => ?_
  rw [lintegral_eq_zero_iff (kernel_measurable ok repellingHybrid_meas _ _ MeasurableSet.univ
    MeasurableSet.univ)] at h0
  -- the points at which the kernel is positive
  have hsub : repellingHybrid.primary ×ˢ {v : Fin 2 → Vec | ∀ i j, |v i j| ≤ 1} ⊆
      {z | ¬ repellingHybrid.kernel (1 / 2) (1 / 10) Set.univ Set.univ z = 0} := by
    rintro z ⟨hz, hv⟩
    have hg := repellingHybrid_good hz hv
    have hc : z ∈ repellingHybrid.counted (1 / 2) (1 / 10) Set.univ Set.univ :=
      ⟨hg, Set.mem_univ _, Set.mem_univ _⟩
    change ¬ repellingHybrid.kernel (1 / 2) (1 / 10) Set.univ Set.univ z = 0
    unfold Hybrid.kernel
    rw [Set.indicator_of_mem hc]
    unfold McMoves.rate
    exact mul_ne_zero (ENNReal.ofReal_pos.2 (Real.exp_pos _)).ne'
      (ENNReal.ofReal_pos.2 (lt_min one_pos (Real.exp_pos _))).ne'
  have hnull := measure_mono_null hsub h0
  unfold phaseVolume at hnull
  rw [Measure.prod_prod, Measure.restrict_apply_self, mul_eq_zero] at hnull
  rcases hnull with h1 | h1
  · have ho : IsOpen {q : Fin 2 → Vec | ∀ i j, 0 < q i j ∧ q i j < 1} := by
      simp only [Set.ofPred_forall, Set.ofPred_and]
      refine isOpen_iInter_of_finite fun i => isOpen_iInter_of_finite fun j => ?_
      exact (isOpen_lt (by fun_prop) (by fun_prop)).inter (isOpen_lt (by fun_prop) (by fun_prop))
    have hne : {q : Fin 2 → Vec | ∀ i j, 0 < q i j ∧ q i j < 1}.Nonempty :=
      ⟨fun _ _ => 1 / 2, fun _ _ => by norm_num⟩
    have hs : {q : Fin 2 → Vec | ∀ i j, 0 < q i j ∧ q i j < 1} ⊆ repellingHybrid.primary := by
      intro q hq i j
      have := hq i j
      simp only [repellingHybrid, repelling, Ortho.default]
      exact ⟨this.1.le, this.2⟩
    exact (ho.measure_pos volume hne).ne' (measure_mono_null hs h1)
  · have ho : IsOpen {v : Fin 2 → Vec | ∀ i j, |v i j| < 1} := by
      simp only [Set.ofPred_forall]
      refine isOpen_iInter_of_finite fun i => isOpen_iInter_of_finite fun j => ?_
      exact isOpen_lt (by fun_prop) (by fun_prop)
    have hne : {v : Fin 2 → Vec | ∀ i j, |v i j| < 1}.Nonempty :=
      ⟨fun _ _ => 0, fun _ _ => by norm_num⟩
    have hs : {v : Fin 2 → Vec | ∀ i j, |v i j| < 1} ⊆ {v : Fin 2 → Vec | ∀ i j, |v i j| ≤ 1} :=
      fun v hv i j => (hv i j).le
    exact (ho.measure_pos volume hne).ne' (measure_mono_null hs h1)

/-- Two atoms joined by a harmonic link, without other interactions; one step. -/
noncomputable def linked : Hybrid 2 where
  box := Ortho.default
  typ _ := 0
  nType := 1
  mass _ := 1
  masked _ _ := False
  cutSq _ _ := 0
  forceOverR _ _ _ := 0
  other p i := if i = 0 then -nearest Ortho.default.lengths (p 0 - p 1)
    else nearest Ortho.default.lengths (p 0 - p 1)
  rc := 1 / 4
  skin := 1 / 8
  cellCap := 3
  atomCap := 2
  pairCap := 4
  pairE _ _ _ := 0
  nRest := 0
  restE _ _ := 0
  hasLink := true
  linkE p := normSq (nearest Ortho.default.lengths (p 0 - p 1)) / 2
  temp := 1
  nStep := 1

theorem linked_other {p q : Fin 2 → Vec} (h : Image (lattice linked.box.lengths) p q) :
    nearest Ortho.default.lengths (q 0 - q 1) = nearest Ortho.default.lengths (p 0 - p 1) := by
  obtain ⟨ki, hi⟩ := h 0
  obtain ⟨kj, hj⟩ := h 1
  have : q 0 - q 1 = p 0 - p 1 + latVec Ortho.default.lengths (ki - kj) := by
    have e : latVec Ortho.default.lengths (ki - kj) =
        latVec Ortho.default.lengths ki - latVec Ortho.default.lengths kj := by
      funext a
      simp [latVec, sub_mul]
    rw [e]
    change q 0 - p 0 = latVec Ortho.default.lengths ki at hi
    change q 1 - p 1 = latVec Ortho.default.lengths kj at hj
    rw [← hi, ← hj]
    abel
  rw [this, nearest_lat (fun _ => by norm_num [Ortho.default])]

theorem linked_ok : linked.OK where
  box := .default
  types _ := by simp [linked]
  rc := by norm_num [linked]
  half _ := by norm_num [linked, Ortho.default]
  skin := by norm_num [linked]
  thin _ := by norm_num [linked, Ortho.default]
  cut _ _ := by norm_num [linked]
  symm _ _ := rfl
  fsymm _ _ _ := rfl
  mask _ _ := Iff.rfl
  other p q h := by
    funext i
    change (if i = 0 then -nearest Ortho.default.lengths (q 0 - q 1)
      else nearest Ortho.default.lengths (q 0 - q 1)) = if i = 0 then
        -nearest Ortho.default.lengths (p 0 - p 1) else nearest Ortho.default.lengths (p 0 - p 1)
    rw [linked_other h]
  atomCap := by norm_num [linked]
  pairCap := by norm_num [linked]
  rcpos := by norm_num [linked]
  range _ _ _ _ := rfl
  rest _ _ _ _ := rfl
  temp := by norm_num [linked]
  masses _ := by norm_num [linked]

/-- The link is stretched. -/
noncomputable def linkedStart : Fin 2 → Vec := ![![2/5, 1/2, 1/2], ![1/2, 1/2, 1/2]]

theorem linked_field (p : Fin 2 → Vec) : linked.field p = fun i =>
    if i = 0 then -nearest Ortho.default.lengths (p 0 - p 1)
      else nearest Ortho.default.lengths (p 0 - p 1) := by
  funext i
  unfold PairSystem.field
  have h0 : ∀ t t' v, linked.one t t' v = 0 := fun t t' v => by
    unfold PairSystem.one
    split
    · exact zero_smul _ _
    · rfl
  simp only [h0, ite_self, Finset.sum_const_zero, zero_add]
  rfl

theorem linked_nearest (a : ℝ) (ha : |a| < 1 / 2) :
    nearest Ortho.default.lengths ![a, 0, 0] = ![a, 0, 0] := by
  have r : round a = 0 := by
    rw [round_eq, Int.floor_eq_iff]
    rw [abs_lt] at ha
    constructor <;> push_cast <;> linarith
  funext j
  fin_cases j
  · simp [nearest, Ortho.default, r]
  · simp [nearest, Ortho.default]
  · simp [nearest, Ortho.default]

/-- The end of the trajectory without initial velocities. -/
theorem linked_final : (linked.final (1 / 10) (linked.start linkedStart fun _ => 0)).1 =
    ![![801/2000, 1/2, 1/2], ![999/2000, 1/2, 1/2]] := by
  have hn : nearest Ortho.default.lengths (linkedStart 0 - linkedStart 1) = ![-1/10, 0, 0] := by
    have e : linkedStart 0 - linkedStart 1 = ![-1/10, 0, 0] := by
      funext j
      fin_cases j <;> norm_num [linkedStart]
    rw [e]
    exact linked_nearest _ (by norm_num [abs_lt])
  have hv : (linked.start linkedStart fun _ => 0).2 = fun _ _ => 0 := by
    funext i j
    exact mul_zero _
  have e : (linked.final (1 / 10) (linked.start linkedStart fun _ => 0)).1 = fun i =>
      linkedStart i + (1 / 10 : ℝ) • ((linked.start linkedStart fun _ => 0).2 i +
        (1 / 10 / 2 / linked.world.m i) • linked.field linkedStart i) := rfl
  rw [e, hv, linked_field]
  have hm : ∀ i, linked.world.m i = 1 := fun _ => rfl
  funext i j
  simp only [hm, hn, Pi.add_apply, Pi.smul_apply, smul_eq_mul]
  fin_cases i <;> fin_cases j <;> norm_num [linkedStart]

theorem linked_good : linked.Good (1 / 2) (1 / 10) (linked.start linkedStart fun _ => 0) where
  mem i j := by
    change 0 ≤ linkedStart i j ∧ linkedStart i j < Ortho.default.lengths j
    fin_cases i <;> fin_cases j <;> norm_num [linkedStart, Ortho.default]
  fits := fits_of_few (by norm_num [linked]) _
  mcFits := mcFits_of_few (by norm_num [linked]) _
  mcFits' := mcFits_of_few (by norm_num [linked]) _
  adm := by
    intro k hk
    have hk0 : k = 0 := by
      have : linked.nStep = 1 := rfl
      omega
    subst hk0
    refine ⟨fun i j => ?_, fits_of_few (by norm_num [linked]) _⟩
    have h := congrFun (congrFun linked_final i) j
    have e : (linked.final (1 / 10) (linked.start linkedStart fun _ => 0)).1 i j =
      linkedStart i j + displacement linked.world.m linked.field (1 / 10)
        (linked.start linkedStart fun _ => 0) i j := rfl
    rw [e] at h
    change |displacement linked.world.m linked.field (1 / 10)
        (linked.start linkedStart fun _ => 0) i j| ≤ 1 / 2
    rw [eq_sub_of_add_eq' h, abs_le]
    fin_cases i <;> fin_cases j <;> norm_num [linkedStart]

/-- **C59 fails with links.**  There are a system with a harmonic link, a move, and the
reverse of the move, such that the Boltzmann weight times the probability of
acceptance is not the same for both. -/
theorem C59_links_violated (c : CL) : ∃ (y : Hybrid 2) (x x' : HState 2) (gs gs' : Fin 2 → Vec),
    y.OK ∧ y.hasLink = true ∧ y.Good (1 / 2) x.nve.dt (y.start x.sys.pos gs) ∧
    y.Reverse x gs x' gs' ∧ y.weighted x gs ≠ y.weighted x' gs' := by
  set z := linked.start linkedStart fun _ => 0 with hz
  set w := linked.turn (1 / 10) z with hw
  have hrev : linked.Reverse (stateAt c linkedStart) (fun _ => 0) (stateAt c w.1) w.2 := by
    refine ⟨?_, rfl⟩
    refine Prod.ext rfl ?_
    funext i j
    change Real.sqrt (1 / 1) * w.2 i j = w.2 i j
    norm_num
  refine ⟨linked, stateAt c linkedStart, stateAt c w.1, fun _ => 0, w.2, linked_ok, rfl, linked_good,
    hrev, fun h => ?_⟩
  rw [C59_links linked_ok (ρ := 1 / 2) (fun _ => by norm_num [linked, Ortho.default])
    linked_good hrev] at h
  have h := h rfl
  have h1 : linked.linkE (stateAt c w.1).sys.pos = linked.linkE (linked.final (1 / 10) z).1 := by
    change normSq (nearest _ (w.1 0 - w.1 1)) / 2 = normSq (nearest _ (_ - _)) / 2
    rw [linked_other (turn_alike linked_ok (1 / 10) linked_good.mem).1]
    rfl
  rw [h1, linked_final] at h
  have e1 : (![![801/2000, 1/2, 1/2], ![999/2000, 1/2, 1/2]] : Fin 2 → Vec) 0 -
      (![![801/2000, 1/2, 1/2], ![999/2000, 1/2, 1/2]] : Fin 2 → Vec) 1 = ![-99/1000, 0, 0] := by
    funext j
    fin_cases j <;> norm_num
  have e2 : linkedStart 0 - linkedStart 1 = ![-1/10, 0, 0] := by
    funext j
    fin_cases j <;> norm_num [linkedStart]
  change normSq (nearest Ortho.default.lengths _) / 2 =
    normSq (nearest Ortho.default.lengths (linkedStart 0 - linkedStart 1)) / 2 at h
  rw [e1, e2, linked_nearest _ (by norm_num [abs_lt]), linked_nearest _ (by norm_num [abs_lt])] at h
  have e3 : ∀ a : ℝ, normSq ![a, 0, 0] = a ^ 2 := fun a => by simp [normSq]
  rw [e3, e3] at h
  norm_num at h

end Verif.Integrate
