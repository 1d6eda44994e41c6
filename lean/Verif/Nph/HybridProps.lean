/-
C69: the hybrid MD/MC move at constant pressure.
-/
import Verif.Nph.HybridFlow

set_option autoImplicit false
set_option linter.dupNamespace false

namespace Verif.Nph

open Verif.Boundary Verif.Integrate MeasureTheory ProbabilityTheory
open Verif.McMoves (metropolis prob)
open scoped ENNReal

section General

variable {ι : Type} [DecidableEq ι] [Fintype ι] {P : Type} {y : Move ι P}
  {F : Vec → (ι → Vec) → ι → Vec} {S : Vec → (ι → Vec) → Vec}
  {U : Vec → (ι → Vec) → ℝ} {cell : Vec → Set (ι → Vec)} {ok : Vec → P → (ι → Vec) → Prop}
  {adm : Vec → (ι → Vec) → (ι → Vec) → Vec → Prop} {g : Nph}

theorem sigma_draws (g : Nph) (temp : ℝ) : Draws g (g.sigma temp) (Nph.sampleEta temp) := by
  intro g' ge hm hW
  rw [sampleEta_eq]
  congr 1
  unfold Nph.sigma
  rw [hm, hW]

theorem sigma_pos {temp : ℝ} (hT : 0 < temp) (hW : 0 < g.W) (a : Fin 3) (ha : g.mode.Used a) :
    0 < g.sigma temp a := by
  have h1 : 0 < Real.sqrt (temp / g.W) := Real.sqrt_pos.2 (by positivity)
  have h2 : 0 < Real.sqrt (temp / g.W / 2) := Real.sqrt_pos.2 (by positivity)
  unfold Nph.sigma
  revert ha
  cases g.mode with
  | orthorhombic => exact fun _ => h1
  | cubic => exact fun _ => h1
  | tetragonal =>
    intro ha
    fin_cases a
    · exact h1
    · exact h2
    · exact absurd rfl ha

/-- **C69, part 1.** A move runs a simulation of `nStep` steps from the lengths and positions
it finds, with the velocities and momenta drawn.  The trial is accepted by the rule of
Metropolis, for the change of potential energy, kinetic energies and pressure times volume
between the ends of the trajectory of the algorithm.  If it is accepted, lengths and
positions are those of the end of the trajectory, with all atoms in the cell; otherwise
they are as they were. -/
theorem C69_move (hy : y.OK F S U cell ok adm) (ge : Vec) (gs : ι → Vec) (u : ℝ)
    (x : MoveState ι P) (hpos : ∀ a, 0 < x.md.L a) (hs : x.md.nph.mode.Shape x.md.L)
    (hin : (fun i => y.shift x.md.L (x.md.sys.pos i)) ∈ cell x.md.L) :
    let g := x.md.nph
    let η : Vec := fun a => if g.mode.Used a then g.sigma y.temp a * ge a else g.eta a
    let v : ι → Vec := fun i a => Real.sqrt (y.temp / y.m i) * gs i a
    let D := y.dyn F S g
    let z : Pt ι := ((g.mode.coord x.md.L, η),
      (fun i a => x.md.sys.pos i a / x.md.L a, fun i a => x.md.L a * v i a))
    let z' := (D.stepIn fold g.dt)^[y.nStep] z
    let H := enthalpy g.mode g.W y.pressure y.m U
    (∀ k < y.nStep, Good g.mode adm D g.dt ((D.stepIn fold g.dt)^[k] z)) →
    let r := y.move ge gs u x
    r.2 = metropolis (Real.exp (-(1 / y.temp) * (H z' - H z))) u ∧
    r.1.nAttempt = x.nAttempt + 1 ∧
    (r.2 = true → r.1.md.L = g.mode.len z'.1.1 ∧ r.1.nAccept = x.nAccept + 1 ∧
      (∀ i, ∃ k : IVec, r.1.md.sys.pos i = place r.1.md.L z'.2.1 i + latVec r.1.md.L k) ∧
      ∀ i a, 0 ≤ r.1.md.sys.pos i a ∧ r.1.md.sys.pos i a < r.1.md.L a) ∧
    (r.2 = false → r.1.md.L = x.md.L ∧ r.1.md.sys.pos = x.md.sys.pos ∧
      r.1.nAccept = x.nAccept) := by
  intro g η v D z z' H hg r
  have hlen : g.mode.len (g.mode.coord x.md.L) = x.md.L := Mode.len_coord hs hpos
  have hrun : ∀ u, y.move ge gs u x = y.run (fun g' ge => g'.draw (g.sigma y.temp) ge) ge gs u x := by
    intro u
    have hd : Nph.sampleEta y.temp (x.md.nph.setup y.toEnv x.md.L) ge =
        (x.md.nph.setup y.toEnv x.md.L).draw (g.sigma y.temp) ge :=
      sigma_draws g y.temp _ _ rfl rfl
    unfold Move.move Move.run
    simp only [hd]
  have hz : z = g.mode.scaled (g.mode.coord x.md.L)
      ((fun g' ge => Nph.draw (g.sigma y.temp) g' ge) (x.md.nph.setup y.toEnv x.md.L) ge).eta
      x.md.sys.pos (velocities y.m y.temp gs) := by
    unfold Mode.scaled
    rw [hlen]
    rfl
  obtain ⟨x', e, h1, h2, h3⟩ := run_eq (g := g) hy (draw := fun g' ge => g'.draw (g.sigma y.temp) ge)
    (ge := ge) (fun g' => ⟨rfl, rfl, rfl, rfl⟩) gs u x rfl rfl rfl (Mode.pos_coord hpos) hlen.symm
    hin hz hg
  have er : r = (x', metropolis (Real.exp (-(1 / y.temp) * (H z' - H z))) u) :=
    (hrun u).trans e
  rw [er]
  refine ⟨rfl, h1, fun h => ?_, fun h => h3 h⟩
  obtain ⟨a1, a2, a3, a4, a5⟩ := h2 h
  have hLn : ∀ a, 0 < x'.md.L a := by rw [a1]; exact Mode.len_pos a2
  refine ⟨a1, a5, fun i => ?_, fun i a => hy.inside _ _ hLn a4 i a⟩
  obtain ⟨k, hk⟩ := a3 i
  exact ⟨k, by rw [← hk]; abel⟩

/-- **C69, part 2.** Detailed balance in the ensemble of constant pressure, for a move that
draws the momenta of the cell with standard deviations `σ` that belong to the inverse masses
of the coordinates of the cell. -/
theorem C69_balance_drawn (hy : y.OK F S U cell ok adm) (hfit : Fits y cell)
    (ht : Tame F S U adm) {σ : Vec} (hσ : ∀ a, g.mode.Used a → 0 < σ a)
    (hT : ∀ a, g.mode.Used a → σ a ^ 2 * g.mode.c g.W a = y.temp)
    {st st' : Vec → (ι → Vec) → MoveState ι P} (hst : Serves g st) (hst' : Serves g st')
    {A B : Set (Vec × (ι → Vec))} (hA : MeasurableSet A) (hB : MeasurableSet B) :
    y.flow g F S U adm (Nph.draw σ) st A B = y.flow g F S U adm (Nph.draw σ) st' B A :=
  flow_balance hy hfit ht hσ (fun _ _ _ _ => rfl) hT hst hst' hA hB

/-- **C69, part 3.** The standard deviations used by the program have this property only for
the mass 1 of the barostat, and never in tetragonal mode. -/
theorem C69_sigma {temp : ℝ} (hT : 0 < temp) (g : Nph) (hW : 0 < g.W) :
    (∀ a, g.mode.Used a → g.sigma temp a ^ 2 * g.mode.c g.W a = temp) ↔
      g.mode ≠ .tetragonal ∧ g.W = 1 := by
  have h1 : Real.sqrt (temp / g.W) ^ 2 = temp / g.W := Real.sq_sqrt (by positivity)
  have h2 : Real.sqrt (temp / g.W / 2) ^ 2 = temp / g.W / 2 := Real.sq_sqrt (by positivity)
  have hW' := hW.ne'
  have hone : temp / g.W * (1 / g.W) = temp ↔ g.W = 1 := by
    rw [div_mul_div_comm, mul_one, div_eq_iff (by positivity)]
    constructor
    · intro h
      have : temp * 1 = temp * (g.W * g.W) := by linarith
      have := mul_left_cancel₀ hT.ne' this
      nlinarith
    · intro h
      rw [h]
      ring
  unfold Nph.sigma
  cases g.mode with
  | orthorhombic =>
    simp only [Mode.Used, Mode.c, h1, forall_const, ne_eq, reduceCtorEq, not_false_eq_true, true_and]
    exact hone
  | cubic =>
    simp only [Mode.Used, Mode.c, h1, forall_eq, Matrix.cons_val_zero, ne_eq, reduceCtorEq,
      not_false_eq_true, true_and]
    exact hone
  | tetragonal =>
    refine iff_of_false (fun h => ?_) fun h => h.1 rfl
    have a0 := h 0 (by simp [Mode.Used])
    have a1 := h 1 (by simp [Mode.Used])
    simp only [Mode.c, Matrix.cons_val_zero, Matrix.cons_val_one, h1, h2] at a0 a1
    rw [hone.1 a0] at a1
    linarith

/-- **C69, part 4, partial.** Detailed balance of the move of the program, for the mass 1 of
the barostat in cubic and orthorhombic mode.

Missing: other masses, for which the property does not hold (`C69_balance_violated`), and
tetragonal mode. -/
theorem C69_balance_partial (hy : y.OK F S U cell ok adm) (hfit : Fits y cell)
    (ht : Tame F S U adm) (hW : g.W = 1) (hm : g.mode ≠ .tetragonal)
    {st st' : Vec → (ι → Vec) → MoveState ι P} (hst : Serves g st) (hst' : Serves g st')
    {A B : Set (Vec × (ι → Vec))} (hA : MeasurableSet A) (hB : MeasurableSet B) :
    y.flow g F S U adm (Nph.sampleEta y.temp) st A B =
      y.flow g F S U adm (Nph.sampleEta y.temp) st' B A :=
  have hp : 0 < g.W := by rw [hW]; exact one_pos
  flow_balance hy hfit ht (sigma_pos hy.temp hp) (sigma_draws g _)
    ((C69_sigma hy.temp g hp).2 ⟨hm, hW⟩) hst hst' hA hB

end General

/-! ### A cell without atoms -/

/-- No atoms; `p`: pressure. -/
noncomputable def ideal (T p : ℝ) : Move (Fin 0) Unit where
  atoms := []
  typ _ := 0
  nType := 1
  mass _ := 1
  shift _ r := r
  isCurrent _ _ _ := true
  build _ _ _ := ()
  forces _ _ _ _ := 0
  virial _ _ _ := 0
  pressure := p
  energy _ _ _ := 0
  temp := T
  nStep := 1

/-- The integrator in cubic mode. -/
noncomputable def idealNph (dt W : ℝ) : Nph := ⟨dt, W, .cubic, 0, fun _ => 0⟩

variable {T p dt W : ℝ}

theorem ideal_ok (hT : 0 < T) (p : ℝ) : (ideal T p).OK (fun _ _ _ => 0) (fun _ _ => 0) (fun _ _ => 0)
    (fun _ => Set.univ) (fun _ _ _ => True) (fun _ _ _ _ => True) where
  box L hL :=
    { nodup := by simp [Env.world, ideal]
      all := fun i => i.elim0
      types := fun i => i.elim0
      shift := fun r => by simp [Env.world, ideal]
      periodic := fun _ _ _ => rfl
      current := fun _ _ _ => rfl
      forces := fun _ _ _ => rfl
      wrap := fun _ _ _ => trivial
      ready := fun _ _ _ => trivial
      build := fun _ _ _ => trivial
      move := fun _ _ _ _ _ _ h => h.elim }
  virial _ _ _ _ _ := rfl
  periodic _ _ _ _ _ := rfl
  move _ _ _ _ _ _ _ _ _ _ _ _ _ := ⟨fun _ => trivial, trivial⟩
  energy _ _ _ _ _ := rfl
  energyPeriodic _ _ _ _ _ := rfl
  inside _ _ _ _ i := i.elim0
  temp := hT
  masses i := i.elim0

theorem ideal_fits : Fits (ideal T p) (fun _ => Set.univ) := fun _ _ _ _ => trivial

theorem ideal_tame : Tame (ι := Fin 0) (fun _ _ _ => 0) (fun _ _ => 0) (fun _ _ => 0)
    (fun _ _ _ _ => True) where
  F := measurable_const
  S := measurable_const
  U := measurable_const
  adm := by simp [AdmMeas]

/-- States of the program. -/
noncomputable def idealState (dt W : ℝ) (L : Vec) (r : Fin 0 → Vec) : MoveState (Fin 0) Unit :=
  ⟨⟨idealNph dt W, L, ⟨r, fun _ => 0, fun _ => 0, ()⟩⟩, r, 0, 0⟩

theorem ideal_serves : Serves (idealNph dt W) (idealState dt W) where
  L _ _ := rfl
  pos _ _ := rfl
  dt _ _ := rfl
  W _ _ := rfl
  mode _ _ := rfl
  unused _ _ _ _ := rfl

/-- The algorithm for an empty cell. -/
noncomputable def idealDyn (p W : ℝ) : Dyn (Fin 0) :=
  dyn .cubic W p (ideal 1 p).m (fun _ _ _ => 0) (fun _ _ => 0)

theorem ideal_dyn : (ideal T p).dyn (fun _ _ _ => 0) (fun _ _ => 0) (idealNph dt W) =
    idealDyn p W := rfl

theorem ideal_G (L : Vec) (r v : Fin 0 → Vec) : (idealDyn p W).G L r v = ![-p, 0, 0] := by
  unfold idealDyn dyn Mode.force kin
  funext a
  fin_cases a
  · simp
    ring
  · simp
  · simp

/-- The cell and its momentum in a step. -/
theorem ideal_half (z : Pt (Fin 0)) : ((idealDyn p W).half dt z).1.1 0 =
    z.1.1 0 + dt / 2 * (1 / W * (z.1.2 0 - dt / 2 * p)) := by
  simp only [Dyn.half, Dyn.grow, Dyn.kick, Dyn.push, ideal_G]
  simp only [idealDyn, dyn, Mode.c,
    Matrix.cons_val_zero]
  ring

theorem ideal_cell (z : Pt (Fin 0)) : ((idealDyn p W).step dt z).1.1 0 =
    z.1.1 0 + dt * (1 / W * (z.1.2 0 - dt / 2 * p)) := by
  simp only [Dyn.step, Dyn.half, Dyn.grow, Dyn.kick, Dyn.push, Dyn.move, ideal_G]
  simp [idealDyn, dyn, Mode.c]
  ring

theorem ideal_momentum (z : Pt (Fin 0)) : ((idealDyn p W).stepIn fold dt z).1.2 0 =
    z.1.2 0 - dt * p := by
  simp only [Dyn.stepIn, Dyn.half, Dyn.grow, Dyn.kick, Dyn.push, Dyn.moveIn, ideal_G]
  simp
  ring

theorem ideal_good {z : Pt (Fin 0)} (h1 : 0 < z.1.1 0)
    (h2 : 0 < z.1.1 0 + dt * (1 / W * (z.1.2 0 - dt / 2 * p))) :
    Good .cubic (fun _ _ _ _ => True) (idealDyn p W) dt z where
  half := by
    change 0 < ((idealDyn p W).half dt z).1.1 0
    rw [ideal_half]
    linarith
  whole := by
    change 0 < ((idealDyn p W).step dt z).1.1 0
    rw [ideal_cell]
    exact h2
  adm := trivial

theorem ideal_fair {z : Pt (Fin 0)} (h1 : 0 < z.1.1 0)
    (h2 : 0 < z.1.1 0 + dt * (1 / W * (z.1.2 0 - dt / 2 * p))) :
    Fair .cubic (fun _ _ _ _ => True) (idealDyn p W) dt 1 z where
  cell := h1
  atoms := fun i => i.elim0
  ahead k hk := by
    obtain rfl : k = 0 := by omega
    exact ideal_good h1 h2
  back k hk := by
    obtain rfl : k = 0 := by omega
    have e1 : (turn (((idealDyn p W).stepIn fold dt)^[0 + 1] z)).1.1 0 =
        z.1.1 0 + dt * (1 / W * (z.1.2 0 - dt / 2 * p)) := ideal_cell z
    have e2 : (turn (((idealDyn p W).stepIn fold dt)^[0 + 1] z)).1.2 0 = -(z.1.2 0 - dt * p) := by
      rw [← ideal_momentum (W := W)]
      rfl
    refine ideal_good ?_ ?_
    · rw [e1]; exact h2
    · rw [e1, e2]
      have : z.1.1 0 + dt * (1 / W * (z.1.2 0 - dt / 2 * p)) +
          dt * (1 / W * (-(z.1.2 0 - dt * p) - dt / 2 * p)) = z.1.1 0 := by ring
      rw [this]
      exact h1

/-- Cells whose volume is in an interval. -/
def between (a b : ℝ) : Set (Vec × (Fin 0 → Vec)) := {c | vol c.1 ∈ Set.Ioo a b}

theorem between_measurable (a b : ℝ) : MeasurableSet (between a b) :=
  (vol_measurable.comp measurable_fst) measurableSet_Ioo

theorem conf_between {z : Pt (Fin 0)} (h : 0 < z.1.1 0) (a b : ℝ) :
    Mode.cubic.conf z ∈ between a b ↔ z.1.1 0 ∈ Set.Ioo a b := by
  unfold between Mode.conf
  simp only [Set.mem_ofPred_eq]
  rw [vol_len_cubic h]

/-- Measure of an interval of the coordinate of a cubic cell. -/
theorem cubic_measure (a b : ℝ) :
    Mode.cubic.measure {q | q 0 ∈ Set.Ioo a b} = ENNReal.ofReal (b - a) := by
  have := used_sigmaFinite Mode.cubic
  have e : {q : Vec | q 0 ∈ Set.Ioo a b} =
      Set.univ.pi fun i : Fin 3 => if i = 0 then Set.Ioo a b else Set.univ := by
    ext q
    simp only [Set.mem_ofPred_eq, Set.mem_univ_pi]
    constructor
    · intro h i
      by_cases hi : i = 0
      · subst hi; simpa using h
      · simp [hi]
    · intro h
      simpa using h 0
  unfold Mode.measure
  rw [e, Measure.pi_pi, Fin.prod_univ_three]
  simp [Mode.Used]

/-- Abbreviations for the empty cell. -/
noncomputable def idealFlow (T p dt W : ℝ) (st : Vec → (Fin 0 → Vec) → MoveState (Fin 0) Unit)
    (A B : Set (Vec × (Fin 0 → Vec))) : ℝ≥0∞ :=
  (ideal T p).flow (idealNph dt W) (fun _ _ _ => 0) (fun _ _ => 0) (fun _ _ => 0)
    (fun _ _ _ _ => True) (Nph.sampleEta T) st A B

theorem prob_le_one (Q : ℝ → Prop) : prob Q ≤ 1 := by
  unfold prob
  refine (measure_mono (t := Set.Ico (0 : ℝ) 1) fun v hv => ⟨hv.1, hv.2.1⟩).trans ?_
  simp

theorem ideal_finite (hT : 0 < T) (hp : 0 ≤ p)
    (st : Vec → (Fin 0 → Vec) → MoveState (Fin 0) Unit) (a b : ℝ)
    (B : Set (Vec × (Fin 0 → Vec))) : idealFlow T p dt W st (between a b) B ≠ ∞ := by
  have hdev : IsProbabilityMeasure (deviates (Fin 0)) := by unfold deviates; infer_instance
  have hle : idealFlow T p dt W st (between a b) B ≤
      ∫⁻ c in Mode.cubic.cells, ({q : Vec | q 0 ∈ Set.Ioo a b} ×ˢ (Set.univ : Set (Fin 0 → Vec))).indicator
        (fun _ => 1) c ∂(Mode.cubic.measure.prod volume) := by
    unfold idealFlow Move.flow
    refine setLIntegral_mono_ae' (cells_measurable _) (Filter.Eventually.of_forall fun c hc => ?_)
    have hq : 0 < c.1 0 := hc.1
    by_cases hA : (Mode.cubic.len c.1, c.2) ∈ between a b
    · have hc' : c ∈ {q : Vec | q 0 ∈ Set.Ioo a b} ×ˢ (Set.univ : Set (Fin 0 → Vec)) := by
        refine ⟨?_, trivial⟩
        have : vol (Mode.cubic.len c.1) ∈ Set.Ioo a b := hA
        rw [vol_len_cubic hq] at this
        exact this
      change (between a b).indicator _ (Mode.cubic.len c.1, c.2) ≤ _
      rw [Set.indicator_of_mem hA, Set.indicator_of_mem hc']
      refine mul_le_one' ?_ ?_
      · rw [← ENNReal.ofReal_one]
        refine ENNReal.ofReal_le_ofReal ?_
        rw [Real.exp_le_one_iff]
        have : vol (Mode.cubic.len c.1) = c.1 0 := vol_len_cubic hq
        change -(1 / T) * (0 + p * vol (Mode.cubic.len c.1)) ≤ 0
        rw [this]
        have h1 : 0 ≤ 1 / T := by positivity
        have h2 : 0 ≤ p * c.1 0 := mul_nonneg hp hq.le
        nlinarith
      · calc _ ≤ ∫⁻ _ : Vec, ∫⁻ _ : Fin 0 → Vec, 1 ∂(deviates (Fin 0)) ∂cellDeviates :=
              lintegral_mono fun ge => lintegral_mono fun gs => prob_le_one _
          _ = 1 := by simp
    · change (between a b).indicator _ (Mode.cubic.len c.1, c.2) ≤ _
      rw [Set.indicator_of_notMem hA]
      exact zero_le
  refine ne_top_of_le_ne_top ?_ (hle.trans (setLIntegral_le_lintegral _ _))
  have hm : MeasurableSet ({q : Vec | q 0 ∈ Set.Ioo a b} ×ˢ (Set.univ : Set (Fin 0 → Vec))) :=
    MeasurableSet.prod ((measurable_pi_apply 0) measurableSet_Ioo) MeasurableSet.univ
  rw [lintegral_indicator hm, setLIntegral_one, Measure.prod_prod, cubic_measure]
  refine ENNReal.mul_ne_top ENNReal.ofReal_ne_top ?_
  rw [volume_pi, Measure.pi_univ]
  simp

/-- Trajectories from volumes in (1, 2) to volumes in (3, 4). -/
noncomputable def idealSet (T p dt W : ℝ) : Set (Pt (Fin 0)) :=
  (ideal T p).counted (idealNph dt W) (fun _ _ _ => 0) (fun _ _ => 0) (fun _ _ _ _ => True)
    (between 1 2) (between 3 4)

theorem idealSet_iff {z : Pt (Fin 0)} : z ∈ idealSet T p dt W ↔ z.1.1 0 ∈ Set.Ioo 1 2 ∧
    z.1.1 0 + dt * (1 / W * (z.1.2 0 - dt / 2 * p)) ∈ Set.Ioo 3 4 := by
  have e : ((ideal T p).trial (idealNph dt W) (fun _ _ _ => 0) (fun _ _ => 0) z).1.1 0 =
      z.1.1 0 + dt * (1 / W * (z.1.2 0 - dt / 2 * p)) := ideal_cell z
  constructor
  · rintro ⟨hf, hA, hB⟩
    have h0 : 0 < z.1.1 0 := hf.cell
    have h1 : 0 < ((ideal T p).trial (idealNph dt W) (fun _ _ _ => 0) (fun _ _ => 0) z).1.1 0 :=
      hf.endCell
    refine ⟨(conf_between h0 _ _).1 hA, ?_⟩
    rw [← e]
    exact (conf_between h1 _ _).1 hB
  · rintro ⟨h1, h2⟩
    have p1 : 0 < z.1.1 0 := by linarith [h1.1]
    have p2 : 0 < z.1.1 0 + dt * (1 / W * (z.1.2 0 - dt / 2 * p)) := by linarith [h2.1]
    refine ⟨ideal_fair p1 p2, (conf_between p1 _ _).2 h1, (conf_between ?_ _ _).2 ?_⟩
    · rw [e]; exact p2
    · rw [e]; exact h2

theorem idealSet_measure (hdt : 0 < dt) (hW : 0 < W) :
    Mode.cubic.phase (unitCell (Fin 0)) (idealSet T p dt W) ≠ 0 := by
  set c := dt / 2 * p with hc
  have hsub : ({q : Vec | q 0 ∈ Set.Ioo (14 / 10 : ℝ) (16 / 10)} ×ˢ
      {η : Vec | η 0 ∈ Set.Ioo (c + 17 / 10 * (W / dt)) (c + 23 / 10 * (W / dt))}) ×ˢ
      ((Set.univ : Set (Fin 0 → Vec)) ×ˢ (Set.univ : Set (Fin 0 → Vec))) ⊆ idealSet T p dt W := by
    rintro z ⟨⟨h1, h2⟩, -⟩
    rw [idealSet_iff]
    simp only [Set.mem_ofPred_eq, Set.mem_Ioo] at h1 h2 ⊢
    have hk : 0 < dt / W := div_pos hdt hW
    have e : dt * (1 / W * (z.1.2 0 - c)) = dt / W * (z.1.2 0 - c) := by ring
    have e1 : dt / W * (17 / 10 * (W / dt)) = 17 / 10 := by field_simp
    have e2 : dt / W * (23 / 10 * (W / dt)) = 23 / 10 := by field_simp
    have b1 := mul_lt_mul_of_pos_left (show 17 / 10 * (W / dt) < z.1.2 0 - c by linarith [h2.1]) hk
    have b2 := mul_lt_mul_of_pos_left (show z.1.2 0 - c < 23 / 10 * (W / dt) by linarith [h2.2]) hk
    rw [e1] at b1
    rw [e2] at b2
    rw [e]
    constructor <;> constructor <;> linarith [h1.1, h1.2]
  refine fun h0 => ?_
  have := measure_mono_null hsub h0
  unfold Mode.phase at this
  rw [Measure.prod_prod, Measure.prod_prod, Measure.prod_prod, cubic_measure, cubic_measure] at this
  have hu : unitCell (Fin 0) = Set.univ := by
    ext s
    exact ⟨fun _ => trivial, fun _ i => i.elim0⟩
  rw [hu, Measure.restrict_univ, volume_pi, Measure.pi_univ] at this
  have hl : 0 < W / dt := div_pos hW hdt
  simp only [Finset.univ_eq_empty, Finset.prod_empty, mul_one, mul_eq_zero,
    ENNReal.ofReal_eq_zero] at this
  rcases this with h | h <;> linarith

/-- The distribution of the momenta, in the empty cell. -/
theorem ideal_excess (hT : 0 < T) (hW : 0 < W) (η : Vec) :
    (ideal T p).excess (idealNph dt W) ((idealNph dt W).sigma T) η =
      ENNReal.ofReal (Real.exp ((1 - W ^ 2) * (η 0 ^ 2 / (2 * T * W)))) := by
  unfold Move.excess
  congr 2
  have hs : Real.sqrt (T / W) ^ 2 = T / W := Real.sq_sqrt (by positivity)
  have e1 : (idealNph dt W).mode.kinetic (idealNph dt W).W η = 1 / W * η 0 ^ 2 / 2 := by
    simp [Mode.kinetic, idealNph, Mode.c, Fin.sum_univ_three]
  have e2 : (idealNph dt W).mode.exponent ((idealNph dt W).sigma T) η =
      η 0 ^ 2 / (2 * (T / W)) := by
    simp [Mode.exponent, idealNph, Mode.Used, Nph.sigma, hs]
  rw [e1, e2]
  change 1 / W * η 0 ^ 2 / 2 / T - _ = _
  field_simp

/-- **C69, part 5.** For every other mass of the barostat, detailed balance does not hold
for the cubic cell without atoms, at any temperature, positive pressure and time step:
configurations with volumes between 1 and 2, and between 3 and 4, are not exchanged at the
same rate. -/
theorem C69_balance_violated (hT : 0 < T) (hp : 0 < p) (hdt : 0 < dt) (hW : 0 < W) (h1 : W ≠ 1)
    {st st' : Vec → (Fin 0 → Vec) → MoveState (Fin 0) Unit} (hst : Serves (idealNph dt W) st)
    (hst' : Serves (idealNph dt W) st') :
    idealFlow T p dt W st (between 1 2) (between 3 4) ≠
      idealFlow T p dt W st' (between 3 4) (between 1 2) := by
  obtain ⟨Z, hZ0, hZ1, hZ⟩ := flow_eq (g := idealNph dt W) (ideal_ok hT p) ideal_fits ideal_tame
    (sigma_pos (g := idealNph dt W) hT hW) (sigma_draws (idealNph dt W) T)
  have hA := between_measurable 1 2
  have hB := between_measurable 3 4
  have f1 := hZ st hst _ _ hA hB
  have f2 := hZ st' hst' _ _ hB hA
  rw [kernel_symm ideal_tame _ hA hB] at f2
  have n1 := ideal_finite (T := T) (p := p) (dt := dt) (W := W) hT hp.le st 1 2 (between 3 4)
  have n2 := ideal_finite (T := T) (p := p) (dt := dt) (W := W) hT hp.le st' 3 4 (between 1 2)
  change idealFlow T p dt W st (between 1 2) (between 3 4) = _ at f1
  change idealFlow T p dt W st' (between 3 4) (between 1 2) = _ at f2
  rw [f1] at n1 ⊢
  rw [f2] at n2 ⊢
  set k := (ideal T p).kernel (idealNph dt W) (fun _ _ _ => 0) (fun _ _ => 0) (fun _ _ => 0)
    (fun _ _ _ _ => True) (between 1 2) (between 3 4) with hk
  set e := (ideal T p).excess (idealNph dt W) ((idealNph dt W).sigma T) with he
  set τ := (ideal T p).trial (idealNph dt W) (fun _ _ _ => 0) (fun _ _ => 0) with hτ
  set μ := (idealNph dt W).mode.phase (unitCell (Fin 0)) with hμ
  have i1 : ∫⁻ z, k z * e z.1.2 ∂μ ≠ ∞ := fun h => n1 (by rw [h]; exact ENNReal.mul_top hZ0)
  have i2 : ∫⁻ z, k z * e (τ z).1.2 ∂μ ≠ ∞ := fun h => n2 (by rw [h]; exact ENNReal.mul_top hZ0)
  have hs : μ (idealSet T p dt W) ≠ 0 := idealSet_measure hdt hW
  -- the momentum gets smaller on these trajectories
  have hmom : ∀ z ∈ idealSet T p dt W, (τ z).1.2 0 ^ 2 < z.1.2 0 ^ 2 := by
    intro z hz
    have hh := idealSet_iff.1 hz
    have em : (τ z).1.2 0 = -(z.1.2 0 - dt * p) := by
      rw [← ideal_momentum (W := W)]
      rfl
    have hpos : 0 < dt * (1 / W * (z.1.2 0 - dt / 2 * p)) := by linarith [hh.1.2, hh.2.1]
    have hpos' : 0 < z.1.2 0 - dt / 2 * p := by
      by_contra hn
      push Not at hn
      have : dt * (1 / W * (z.1.2 0 - dt / 2 * p)) ≤ 0 :=
        mul_nonpos_of_nonneg_of_nonpos hdt.le
          (mul_nonpos_of_nonneg_of_nonpos (by positivity) hn)
      linarith
    rw [em]
    have := mul_pos (mul_pos hdt hp) hpos'
    nlinarith
  have hk0 : ∀ z ∈ idealSet T p dt W, k z ≠ 0 ∧ k z ≠ ∞ := by
    intro z hz
    rw [hk]
    unfold Move.kernel
    unfold idealSet at hz
    rw [Set.indicator_of_mem hz]
    unfold Verif.McMoves.rate
    constructor
    · refine mul_ne_zero ?_ ?_
      · rw [Ne, ENNReal.ofReal_eq_zero, not_le]
        exact Real.exp_pos _
      · rw [Ne, ENNReal.ofReal_eq_zero, not_le]
        exact lt_min one_pos (Real.exp_pos _)
    · exact ENNReal.mul_ne_top ENNReal.ofReal_ne_top ENNReal.ofReal_ne_top
  have hkn : ∀ z, z ∉ idealSet T p dt W → k z = 0 := fun z hz => Set.indicator_of_notMem hz _
  have m1 : Measurable fun z : Pt (Fin 0) => k z * e z.1.2 :=
    (kernel_measurable ideal_tame hA hB).mul
      ((excess_measurable _).comp (measurable_snd.comp measurable_fst))
  have m2 : Measurable fun z : Pt (Fin 0) => k z * e (τ z).1.2 :=
    (kernel_measurable ideal_tame hA hB).mul ((excess_measurable _).comp
      ((measurable_snd.comp measurable_fst).comp
        (move_trial_preserving (y := ideal T p) (g := idealNph dt W) ideal_tame).measurable))
  have hne : ∫⁻ z, k z * e z.1.2 ∂μ ≠ ∫⁻ z, k z * e (τ z).1.2 ∂μ := by
    have hd : 0 < 2 * T * W := by positivity
    rcases lt_or_gt_of_ne h1 with hlt | hgt
    · -- small mass
      have hlt' : ∀ z ∈ idealSet T p dt W, e (τ z).1.2 < e z.1.2 := fun z hz => by
        rw [he, ideal_excess hT hW, ideal_excess hT hW]
        refine (ENNReal.ofReal_lt_ofReal_iff (Real.exp_pos _)).2 (Real.exp_lt_exp.2 ?_)
        have h2 : 0 < 1 - W ^ 2 := by nlinarith
        exact mul_lt_mul_of_pos_left (div_lt_div_of_pos_right (hmom z hz) hd) h2
      have := lintegral_strict_mono_of_ae_le_of_ae_lt_on (μ := μ) m1.aemeasurable i2
        (Filter.Eventually.of_forall fun z => by
          by_cases hz : z ∈ idealSet T p dt W
          · exact mul_le_mul_right (hlt' z hz).le _
          · simp only [hkn z hz, zero_mul, le_refl]) hs
        (Filter.Eventually.of_forall fun z hz =>
          (ENNReal.mul_lt_mul_iff_right (hk0 z hz).1 (hk0 z hz).2).2 (hlt' z hz))
      exact this.ne'
    · -- large mass
      have hlt' : ∀ z ∈ idealSet T p dt W, e z.1.2 < e (τ z).1.2 := fun z hz => by
        rw [he, ideal_excess hT hW, ideal_excess hT hW]
        refine (ENNReal.ofReal_lt_ofReal_iff (Real.exp_pos _)).2 (Real.exp_lt_exp.2 ?_)
        have h2 : 1 - W ^ 2 < 0 := by nlinarith
        exact mul_lt_mul_of_neg_left (div_lt_div_of_pos_right (hmom z hz) hd) h2
      have := lintegral_strict_mono_of_ae_le_of_ae_lt_on (μ := μ) m2.aemeasurable i1
        (Filter.Eventually.of_forall fun z => by
          by_cases hz : z ∈ idealSet T p dt W
          · exact mul_le_mul_right (hlt' z hz).le _
          · simp only [hkn z hz, zero_mul, le_refl]) hs
        (Filter.Eventually.of_forall fun z hz =>
          (ENNReal.mul_lt_mul_iff_right (hk0 z hz).1 (hk0 z hz).2).2 (hlt' z hz))
      exact this.ne
  intro h
  exact hne ((ENNReal.mul_right_inj hZ0 hZ1).1 h)

end Verif.Nph
