/-
The flow between sets of configurations under the hybrid move at constant pressure.
-/
import Verif.Nph.HybridBalance

set_option autoImplicit false
set_option linter.dupNamespace false

namespace Verif.Nph

open Verif.Boundary Verif.Integrate MeasureTheory ProbabilityTheory
open Verif.McMoves (metropolis prob prob_metropolis prob_congr prob_false rate rate_symm)
open scoped ENNReal

variable {ι : Type} [DecidableEq ι] [Fintype ι] {P : Type}

/-- Coordinates of cells of positive size, and positions of atoms in them. -/
def Mode.cells (mode : Mode) : Set (Vec × (ι → Vec)) :=
  {c | mode.Pos c.1 ∧ ∀ i a, c.2 i a ∈ Set.Ico 0 (mode.len c.1 a)}

/-- The point from which the simulation of a move starts, in the cell with coordinates `q`. -/
noncomputable def Move.start (y : Move ι P) (draw : Nph → Vec → Nph) (ge : Vec) (gs : ι → Vec)
    (x : MoveState ι P) (q : Vec) : Pt ι :=
  x.md.nph.mode.scaled q (draw (x.md.nph.setup y.toEnv x.md.L) ge).eta x.md.sys.pos
    (velocities y.m y.temp gs)

/-- The probability weight, in the ensemble of constant pressure, of having lengths and
positions in `A`, and of reaching lengths and positions in `B` by a move that is accepted,
along a trajectory that can be followed in both directions.  `st L r`: the state of the
program in which the cell has the lengths `L` and the atoms are at `r`; `g`: parameters of
the integrator. -/
noncomputable def Move.flow (y : Move ι P) (g : Nph) (F : Vec → (ι → Vec) → ι → Vec)
    (S : Vec → (ι → Vec) → Vec) (U : Vec → (ι → Vec) → ℝ)
    (adm : Vec → (ι → Vec) → (ι → Vec) → Vec → Prop) (draw : Nph → Vec → Nph)
    (st : Vec → (ι → Vec) → MoveState ι P) (A B : Set (Vec × (ι → Vec))) : ℝ≥0∞ :=
  ∫⁻ c in g.mode.cells, A.indicator (fun _ => ENNReal.ofReal (Real.exp (-(1 / y.temp) *
      (U (g.mode.len c.1) c.2 + y.pressure * vol (g.mode.len c.1)))) *
    ∫⁻ ge, ∫⁻ gs, prob (fun u =>
      Fair g.mode adm (y.dyn F S g) g.dt y.nStep
        (y.start draw ge gs (st (g.mode.len c.1) c.2) c.1) ∧
      ∃ x', y.run draw ge gs u (st (g.mode.len c.1) c.2) = (x', true) ∧
        (x'.md.L, x'.md.sys.pos) ∈ B) ∂(deviates ι) ∂cellDeviates)
    (g.mode.len c.1, c.2) ∂(g.mode.measure.prod volume)

/-- States of a program with the parameters `g`. -/
structure Serves (g : Nph) (st : Vec → (ι → Vec) → MoveState ι P) : Prop where
  L : ∀ L r, (st L r).md.L = L
  pos : ∀ L r, (st L r).md.sys.pos = r
  dt : ∀ L r, (st L r).md.nph.dt = g.dt
  W : ∀ L r, (st L r).md.nph.W = g.W
  mode : ∀ L r, (st L r).md.nph.mode = g.mode
  unused : ∀ L r a, ¬ g.mode.Used a → (st L r).md.nph.eta a = 0

/-- Momenta are drawn with standard deviations `σ`. -/
def Draws (g : Nph) (σ : Vec) (draw : Nph → Vec → Nph) : Prop :=
  ∀ g' ge, g'.mode = g.mode → g'.W = g.W → draw g' ge = g'.draw σ ge

/-- Forces, stress, energy and admissible motions are measurable. -/
structure Tame (F : Vec → (ι → Vec) → ι → Vec) (S : Vec → (ι → Vec) → Vec)
    (U : Vec → (ι → Vec) → ℝ) (adm : Vec → (ι → Vec) → (ι → Vec) → Vec → Prop) : Prop
    extends Meas F S where
  U : Measurable fun z : Vec × (ι → Vec) => U z.1 z.2
  adm : AdmMeas adm

/-- The pair list can be made for all positions in the cell. -/
def Fits (y : Move ι P) (cell : Vec → Set (ι → Vec)) : Prop :=
  ∀ (L : Vec) (r : ι → Vec), (∀ a, 0 < L a) → (∀ i a, r i a ∈ Set.Ico 0 (L a)) →
    (fun i => y.shift L (r i)) ∈ cell L

/-- Lengths and positions. -/
noncomputable def Mode.conf (mode : Mode) (z : Pt ι) : Vec × (ι → Vec) :=
  (mode.len z.1.1, place (mode.len z.1.1) z.2.1)

omit [DecidableEq ι] [Fintype ι] in
theorem conf_scaled {mode : Mode} {q : Vec} (hq : mode.Pos q) (η : Vec) (r v : ι → Vec) :
    mode.conf (mode.scaled q η r v) = (mode.len q, r) := by
  unfold Mode.conf Mode.scaled
  rw [place_speed (Mode.len_pos hq)]

omit [DecidableEq ι] [Fintype ι] in
/-- Two images in the cell are the same. -/
theorem image_unique {L : Vec} (hL : ∀ a, 0 < L a) {p q : ι → Vec}
    (hp : ∀ i a, p i a ∈ Set.Ico 0 (L a)) (hq : ∀ i a, q i a ∈ Set.Ico 0 (L a))
    (h : Image (lattice L) p q) : q = p := by
  funext i a
  obtain ⟨k, hk⟩ := h i
  have e := congrFun hk a
  simp only [Pi.sub_apply, latVec] at e
  have h1 := hp i a
  have h2 := hq i a
  have hLa := hL a
  have b1 : (k a : ℝ) * L a < 1 * L a := by linarith [h1.1, h2.2]
  have b2 : (-1 : ℝ) * L a < k a * L a := by linarith [h1.2, h2.1]
  have c1 : (k a : ℝ) < 1 := lt_of_mul_lt_mul_right b1 hLa.le
  have c2 : (-1 : ℝ) < k a := lt_of_mul_lt_mul_right b2 hLa.le
  have c1' : k a < 1 := by exact_mod_cast c1
  have c2' : -1 < k a := by exact_mod_cast c2
  have : k a = 0 := by omega
  rw [this] at e
  simp at e
  linarith

omit [DecidableEq ι] [Fintype ι] in
theorem place_mem {L : Vec} (hL : ∀ a, 0 < L a) {s : ι → Vec} :
    s ∈ unitCell ι ↔ ∀ i a, place L s i a ∈ Set.Ico 0 (L a) := by
  refine forall_congr' fun i => forall_congr' fun a => ?_
  have := hL a
  simp only [place, Set.mem_Ico]
  constructor
  · rintro ⟨h1, h2⟩
    exact ⟨by positivity, by nlinarith⟩
  · rintro ⟨h1, h2⟩
    exact ⟨by
      by_contra hn
      push Not at hn
      nlinarith, by
      by_contra hn
      push Not at hn
      nlinarith⟩

variable {y : Move ι P} {F : Vec → (ι → Vec) → ι → Vec} {S : Vec → (ι → Vec) → Vec}
  {U : Vec → (ι → Vec) → ℝ} {cell : Vec → Set (ι → Vec)} {ok : Vec → P → (ι → Vec) → Prop}
  {adm : Vec → (ι → Vec) → (ι → Vec) → Vec → Prop} {g : Nph}

omit [DecidableEq ι] in
theorem H_turn (z : Pt ι) : y.H g U (turn z) = y.H g U z := by
  unfold Move.H enthalpy Nph.kinetic Mode.kinetic turn
  simp only [speed_neg, neg_sq]

/-- The trial of the move as a map. -/
noncomputable def Move.trial (y : Move ι P) (g : Nph) (F : Vec → (ι → Vec) → ι → Vec)
    (S : Vec → (ι → Vec) → Vec) (z : Pt ι) : Pt ι := (y.dyn F S g).trial g.dt y.nStep z

/-- Points counted by the flow. -/
def Move.counted (y : Move ι P) (g : Nph) (F : Vec → (ι → Vec) → ι → Vec)
    (S : Vec → (ι → Vec) → Vec) (adm : Vec → (ι → Vec) → (ι → Vec) → Vec → Prop)
    (A B : Set (Vec × (ι → Vec))) : Set (Pt ι) :=
  {z | Fair g.mode adm (y.dyn F S g) g.dt y.nStep z ∧ g.mode.conf z ∈ A ∧
    g.mode.conf (y.trial g F S z) ∈ B}

/-- Probability of acceptance. -/
noncomputable def Move.accept (y : Move ι P) (g : Nph) (F : Vec → (ι → Vec) → ι → Vec)
    (S : Vec → (ι → Vec) → Vec) (U : Vec → (ι → Vec) → ℝ) (z : Pt ι) : ℝ≥0∞ :=
  ENNReal.ofReal (min 1 (Real.exp (-(1 / y.temp) * (y.H g U (y.trial g F S z) - y.H g U z))))

/-- Their weight. -/
noncomputable def Move.kernel (y : Move ι P) (g : Nph) (F : Vec → (ι → Vec) → ι → Vec)
    (S : Vec → (ι → Vec) → Vec) (U : Vec → (ι → Vec) → ℝ)
    (adm : Vec → (ι → Vec) → (ι → Vec) → Vec → Prop)
    (A B : Set (Vec × (ι → Vec))) : Pt ι → ℝ≥0∞ :=
  (y.counted g F S adm A B).indicator fun z =>
    rate (1 / y.temp) (y.H g U z) (y.H g U (y.trial g F S z))

/-- The ratio of the distribution from which momenta are drawn and that of Boltzmann. -/
noncomputable def Move.excess (y : Move ι P) (g : Nph) (σ η : Vec) : ℝ≥0∞ :=
  ENNReal.ofReal (Real.exp (g.mode.kinetic g.W η / y.temp - g.mode.exponent σ η))

omit [DecidableEq ι] [Fintype ι] in
theorem conf_measurable (mode : Mode) : Measurable (mode.conf (ι := ι)) := by
  have hl : Measurable fun z : Pt ι => mode.len z.1.1 :=
    (len_measurable mode).comp (measurable_fst.comp measurable_fst)
  exact hl.prodMk (place_measurable hl (measurable_fst.comp measurable_snd))

omit [DecidableEq ι] in
theorem move_trial_preserving (ht : Tame F S U adm) :
    MeasurePreserving (y.trial g F S) (g.mode.phase (unitCell ι)) (g.mode.phase (unitCell ι)) :=
  trial_preserving ht.toMeas _ _

omit [DecidableEq ι] in
theorem counted_measurable (ht : Tame F S U adm) {A B : Set (Vec × (ι → Vec))}
    (hA : MeasurableSet A) (hB : MeasurableSet B) : MeasurableSet (y.counted g F S adm A B) :=
  (fair_measurable ht.toMeas ht.adm _ _).inter ((conf_measurable _ hA).inter
    (((conf_measurable _).comp (move_trial_preserving ht).measurable) hB))

omit [DecidableEq ι] in
theorem H_measurable (ht : Tame F S U adm) : Measurable (y.H g U) :=
  enthalpy_measurable _ _ _ ht.U

omit [DecidableEq ι] in
theorem accept_measurable (ht : Tame F S U adm) : Measurable (y.accept g F S U) := by
  have h1 : Measurable (y.H g U) := H_measurable ht
  have h2 : Measurable fun z => y.H g U (y.trial g F S z) :=
    h1.comp (move_trial_preserving ht).measurable
  exact (measurable_const.min (Real.measurable_exp.comp ((h2.sub h1).const_mul _))).ennreal_ofReal

omit [DecidableEq ι] in
theorem kernel_measurable (ht : Tame F S U adm) {A B : Set (Vec × (ι → Vec))}
    (hA : MeasurableSet A) (hB : MeasurableSet B) : Measurable (y.kernel g F S U adm A B) := by
  refine Measurable.indicator ?_ (counted_measurable ht hA hB)
  have h1 : Measurable (y.H g U) := H_measurable ht
  exact ((Real.measurable_exp.comp (h1.const_mul _)).ennreal_ofReal).mul (accept_measurable ht)

omit [DecidableEq ι] [Fintype ι] in
theorem excess_measurable (σ : Vec) : Measurable (y.excess g σ) := by
  have h4 : Measurable (g.mode.kinetic g.W) := by
    unfold Mode.kinetic
    refine Finset.measurable_sum _ fun a _ => ?_
    exact (((measurable_pi_apply a).pow_const 2).const_mul _).div_const _
  exact (Real.measurable_exp.comp ((h4.div_const _).sub
    (exponent_measurable _ σ))).ennreal_ofReal

omit [DecidableEq ι] in
theorem move_trial_trial {z : Pt ι} (hz : z.2.1 ∈ unitCell ι) :
    y.trial g F S (y.trial g F S z) = z := trial_trial (dyn_even _ _ _ _ _ _) _ _ hz

omit [DecidableEq ι] in
theorem kernel_trial (A B : Set (Vec × (ι → Vec))) {z : Pt ι} (hz : z.2.1 ∈ unitCell ι) :
    y.kernel g F S U adm A B (y.trial g F S z) = y.kernel g F S U adm B A z := by
  have hiff : y.trial g F S z ∈ y.counted g F S adm A B ↔ z ∈ y.counted g F S adm B A := by
    have hf : Fair g.mode adm (y.dyn F S g) g.dt y.nStep (y.trial g F S z) ↔
        Fair g.mode adm (y.dyn F S g) g.dt y.nStep z := fair_trial_iff (dyn_even _ _ _ _ _ _) hz
    unfold Move.counted
    simp only [Set.mem_ofPred_eq, move_trial_trial hz, hf]
    tauto
  unfold Move.kernel
  by_cases h : z ∈ y.counted g F S adm B A
  · rw [Set.indicator_of_mem h, Set.indicator_of_mem (hiff.2 h), move_trial_trial hz, rate_symm]
  · rw [Set.indicator_of_notMem h, Set.indicator_of_notMem fun h' => h (hiff.1 h')]

omit [DecidableEq ι] in
theorem phase_restrict (mode : Mode) (C : Set (ι → Vec)) :
    mode.phase C = ((mode.measure.prod mode.measure).prod
      ((volume : Measure (ι → Vec)).prod (volume : Measure (ι → Vec)))).restrict
        (Set.univ ×ˢ (C ×ˢ Set.univ)) := by
  unfold Mode.phase
  rw [← Measure.prod_restrict, ← Measure.prod_restrict, Measure.restrict_univ,
    Measure.restrict_univ]

omit [DecidableEq ι] in
theorem phase_ae (mode : Mode) : ∀ᵐ z ∂(mode.phase (unitCell ι)), z.2.1 ∈ unitCell ι := by
  rw [phase_restrict]
  filter_upwards [ae_restrict_mem (MeasurableSet.univ.prod
    ((unitCell_measurable (ι := ι)).prod MeasurableSet.univ))] with z hz
  exact hz.2.1

omit [DecidableEq ι] in
/-- Exchanging the two sets means to reverse the trajectories. -/
theorem kernel_symm (ht : Tame F S U adm) (σ : Vec) {A B : Set (Vec × (ι → Vec))}
    (hA : MeasurableSet A) (hB : MeasurableSet B) :
    ∫⁻ z, y.kernel g F S U adm B A z * y.excess g σ z.1.2 ∂(g.mode.phase (unitCell ι)) =
      ∫⁻ z, y.kernel g F S U adm A B z * y.excess g σ (y.trial g F S z).1.2
        ∂(g.mode.phase (unitCell ι)) := by
  have hm : Measurable fun z : Pt ι => y.kernel g F S U adm B A z * y.excess g σ z.1.2 :=
    (kernel_measurable ht hB hA).mul
      ((excess_measurable σ).comp (measurable_snd.comp measurable_fst))
  rw [← (move_trial_preserving (y := y) (g := g) ht).lintegral_comp hm]
  refine lintegral_congr_ae ?_
  filter_upwards [phase_ae g.mode] with z hz
  rw [kernel_trial B A hz]

/-- The probability that a move is accepted and leads to `B`. -/
theorem prob_move (hy : y.OK F S U cell ok adm) (hfit : Fits y cell) {draw : Nph → Vec → Nph}
    {σ : Vec} (hd : Draws g σ draw) {st : Vec → (ι → Vec) → MoveState ι P} (hst : Serves g st)
    {c : Vec × (ι → Vec)} (hc : c ∈ g.mode.cells) (ge : Vec) (gs : ι → Vec)
    (B : Set (Vec × (ι → Vec)))
    (hf : Fair g.mode adm (y.dyn F S g) g.dt y.nStep
      (y.start draw ge gs (st (g.mode.len c.1) c.2) c.1)) :
    prob (fun u => Fair g.mode adm (y.dyn F S g) g.dt y.nStep
        (y.start draw ge gs (st (g.mode.len c.1) c.2) c.1) ∧
      ∃ x', y.run draw ge gs u (st (g.mode.len c.1) c.2) = (x', true) ∧
        (x'.md.L, x'.md.sys.pos) ∈ B) =
      B.indicator (fun _ => y.accept g F S U (y.start draw ge gs (st (g.mode.len c.1) c.2) c.1))
        (g.mode.conf (y.trial g F S (y.start draw ge gs (st (g.mode.len c.1) c.2) c.1))) := by
  set x := st (g.mode.len c.1) c.2 with hx
  set z := y.start draw ge gs x c.1 with hz
  have hxL : x.md.L = g.mode.len c.1 := hst.L _ _
  have hxr : x.md.sys.pos = c.2 := hst.pos _ _
  have hxm : x.md.nph.mode = g.mode := hst.mode _ _
  have hxW : x.md.nph.W = g.W := hst.W _ _
  have hxd : x.md.nph.dt = g.dt := hst.dt _ _
  have hpos := Mode.len_pos hc.1
  -- the draw does not change other data of the integrator
  have hdraw : ∀ g' : Nph, g'.mode = g.mode → g'.W = g.W → (draw g' ge).dt = g'.dt ∧
      (draw g' ge).W = g'.W ∧ (draw g' ge).mode = g'.mode ∧ (draw g' ge).pref = g'.pref :=
    fun g' h1 h2 => by rw [hd g' ge h1 h2]; exact ⟨rfl, rfl, rfl, rfl⟩
  set draw' : Nph → Vec → Nph := fun g' ge => g'.draw σ ge with hdr'
  have hsame : draw (x.md.nph.setup y.toEnv x.md.L) ge =
      draw' (x.md.nph.setup y.toEnv x.md.L) ge := hd _ _ hxm hxW
  have hrun : ∀ u, y.run draw ge gs u x = y.run draw' ge gs u x := fun u => by
    unfold Move.run
    simp only [hsame]
  have hz' : z = g.mode.scaled c.1 (draw' (x.md.nph.setup y.toEnv x.md.L) ge).eta x.md.sys.pos
      (velocities y.m y.temp gs) := by
    rw [hz, ← hsame, ← hxm]
    rfl
  have hin : (fun i => y.shift x.md.L (x.md.sys.pos i)) ∈ cell x.md.L := by
    rw [hxL, hxr]
    exact hfit _ _ hpos hc.2
  have hmove := fun u => run_eq hy (draw := draw') (ge := ge) (fun g' => ⟨rfl, rfl, rfl, rfl⟩) gs u x
    hxd hxW hxm hc.1 hxL hin hz' hf.ahead
  have hH : y.H g U (y.trial g F S z) =
      y.H g U (((y.dyn F S g).stepIn fold g.dt)^[y.nStep] z) := H_turn _
  set a := Real.exp (-(1 / y.temp) * (y.H g U (((y.dyn F S g).stepIn fold g.dt)^[y.nStep] z) -
    y.H g U z)) with ha
  have hacc : y.accept g F S U z = ENNReal.ofReal (min 1 a) := by
    unfold Move.accept
    rw [hH]
  have hev : ∀ u, (Fair g.mode adm (y.dyn F S g) g.dt y.nStep z ∧
      ∃ x', y.run draw ge gs u x = (x', true) ∧ (x'.md.L, x'.md.sys.pos) ∈ B) ↔
      metropolis a u = true ∧ g.mode.conf (y.trial g F S z) ∈ B := by
    intro u
    obtain ⟨x', e, -, hA, -⟩ := hmove u
    rw [hrun, e]
    have hconf : metropolis a u = true → (x'.md.L, x'.md.sys.pos) =
        g.mode.conf (y.trial g F S z) := fun hm => by
      obtain ⟨h1, h2, h3, h4, -⟩ := hA hm
      have hLn : ∀ a, 0 < x'.md.L a := by rw [h1]; exact Mode.len_pos h2
      have hmem : (((y.dyn F S g).stepIn fold g.dt)^[y.nStep] z).2.1 ∈ unitCell ι :=
        stepsIn_mem _ _ hf.atoms
      have := image_unique hLn ((place_mem hLn).1 hmem) (hy.inside _ _ hLn h4) h3
      refine Prod.ext h1 ?_
      change x'.md.sys.pos = place (g.mode.len (((y.dyn F S g).stepIn fold g.dt)^[y.nStep] z).1.1)
        (((y.dyn F S g).stepIn fold g.dt)^[y.nStep] z).2.1
      rw [this, h1]
    constructor
    · rintro ⟨-, x1, e1, hB⟩
      simp only [Prod.mk.injEq] at e1
      rw [← e1.1, hconf e1.2] at hB
      exact ⟨e1.2, hB⟩
    · rintro ⟨hm, hB⟩
      refine ⟨hf, x', by rw [hm], ?_⟩
      rw [hconf hm]
      exact hB
  rw [prob_congr fun u _ _ => hev u]
  by_cases hB : g.mode.conf (y.trial g F S z) ∈ B
  · rw [Set.indicator_of_mem hB, hacc]
    simp only [hB, and_true]
    exact prob_metropolis (Real.exp_pos _).le
  · rw [Set.indicator_of_notMem hB]
    simp only [hB, and_false]
    exact prob_false

omit [DecidableEq ι] in
theorem lintegral_support {α : Type} [MeasurableSpace α] {μ : Measure α} {s : Set α}
    (hs : MeasurableSet s) {f : α → ℝ≥0∞} (h : ∀ x, x ∉ s → f x = 0) :
    ∫⁻ x in s, f x ∂μ = ∫⁻ x, f x ∂μ := by
  rw [← lintegral_indicator hs]
  refine lintegral_congr fun x => ?_
  by_cases hx : x ∈ s
  · rw [Set.indicator_of_mem hx]
  · rw [Set.indicator_of_notMem hx, h x hx]

omit [DecidableEq ι] [Fintype ι] in
theorem scaled_measurable (mode : Mode) :
    Measurable fun z : (Vec × Vec) × ((ι → Vec) × (ι → Vec)) =>
      mode.scaled z.1.1 z.1.2 z.2.1 z.2.2 := by
  have hl : Measurable fun z : Pt ι => mode.len z.1.1 :=
    (len_measurable mode).comp (measurable_fst.comp measurable_fst)
  exact measurable_fst.prodMk ((speed_measurable hl (measurable_fst.comp measurable_snd)).prodMk
    (place_measurable hl (measurable_snd.comp measurable_snd)))

omit [DecidableEq ι] in
theorem cells_measurable (mode : Mode) : MeasurableSet (mode.cells (ι := ι)) := by
  refine (pos_measurable mode measurable_fst).inter ?_
  have : {c : Vec × (ι → Vec) | ∀ i a, c.2 i a ∈ Set.Ico 0 (mode.len c.1 a)} =
      ⋂ i, ⋂ a, {c : Vec × (ι → Vec) | 0 ≤ c.2 i a} ∩ {c | c.2 i a < mode.len c.1 a} := by
    ext c
    simp [Set.mem_Ico]
  change MeasurableSet {c : Vec × (ι → Vec) | ∀ i a, c.2 i a ∈ Set.Ico 0 (mode.len c.1 a)}
  rw [this]
  refine MeasurableSet.iInter fun i => MeasurableSet.iInter fun a => ?_
  have h1 : Measurable fun c : Vec × (ι → Vec) => c.2 i a :=
    (measurable_pi_apply a).comp ((measurable_pi_apply i).comp measurable_snd)
  have h2 : Measurable fun c : Vec × (ι → Vec) => mode.len c.1 a :=
    (measurable_pi_apply a).comp ((len_measurable mode).comp measurable_fst)
  exact (measurableSet_le measurable_const h1).inter (measurableSet_lt h1 h2)

omit [DecidableEq ι] in
/-- From physical to scaled coordinates. -/
theorem kernel_physical (ht : Tame F S U adm) (σ : Vec) {A B : Set (Vec × (ι → Vec))}
    (hA : MeasurableSet A) (hB : MeasurableSet B) :
    ∫⁻ c, ∫⁻ η, (∫⁻ v, y.kernel g F S U adm A B (g.mode.scaled c.1 η c.2 v) * y.excess g σ η)
        ∂g.mode.measure ∂(g.mode.measure.prod volume) =
      ∫⁻ z, y.kernel g F S U adm A B z * y.excess g σ z.1.2 ∂(g.mode.phase (unitCell ι)) := by
  set k : Pt ι → ℝ≥0∞ := fun z => y.kernel g F S U adm A B z * y.excess g σ z.1.2 with hk
  have hkm : Measurable k := (kernel_measurable ht hA hB).mul
    ((excess_measurable σ).comp (measurable_snd.comp measurable_fst))
  set k' : Pt ι → ℝ≥0∞ := fun z => k (g.mode.scaled z.1.1 z.1.2 z.2.1 z.2.2) with hk'
  have hkm' : Measurable k' := hkm.comp (scaled_measurable g.mode)
  have hk0 : ∀ z, ¬ g.mode.Pos z.1.1 → k z = 0 := fun z hz => by
    simp only [hk, Move.kernel]
    rw [Set.indicator_of_notMem fun h => hz h.1.cell, zero_mul]
  have hk1 : ∀ z, z.2.1 ∉ unitCell ι → k z = 0 := fun z hz => by
    simp only [hk, Move.kernel]
    rw [Set.indicator_of_notMem fun h => hz h.1.atoms, zero_mul]
  -- order of integrations
  have e1 : ∫⁻ c, ∫⁻ η, (∫⁻ v, k' ((c.1, η), (c.2, v))) ∂g.mode.measure
      ∂(g.mode.measure.prod (volume : Measure (ι → Vec))) =
      ∫⁻ z, k' z ∂((g.mode.measure.prod g.mode.measure).prod (volume.prod volume)) := by
    have m1 : Measurable fun w : (Vec × (ι → Vec)) × (Vec × (ι → Vec)) =>
        k' ((w.1.1, w.2.1), (w.1.2, w.2.2)) :=
      hkm'.comp (((measurable_fst.comp measurable_fst).prodMk
        (measurable_fst.comp measurable_snd)).prodMk
        ((measurable_snd.comp measurable_fst).prodMk (measurable_snd.comp measurable_snd)))
    have m2 : Measurable fun w : (Vec × (ι → Vec)) × Vec =>
        ∫⁻ v, k' ((w.1.1, w.2), (w.1.2, v)) := by
      have : Measurable fun w : ((Vec × (ι → Vec)) × Vec) × (ι → Vec) =>
          k' ((w.1.1.1, w.1.2), (w.1.1.2, w.2)) :=
        hkm'.comp (((measurable_fst.comp (measurable_fst.comp measurable_fst)).prodMk
          (measurable_snd.comp measurable_fst)).prodMk
          ((measurable_snd.comp (measurable_fst.comp measurable_fst)).prodMk measurable_snd))
      exact this.lintegral_prod_right'
    have m3 : Measurable fun c : Vec × (ι → Vec) =>
        ∫⁻ η, (∫⁻ v, k' ((c.1, η), (c.2, v))) ∂g.mode.measure := m2.lintegral_prod_right'
    rw [lintegral_prod _ m3.aemeasurable, lintegral_prod _ hkm'.aemeasurable]
    have m4 : Measurable fun w : Vec × Vec => ∫⁻ b, k' (w, b) ∂((volume : Measure (ι → Vec)).prod
        (volume : Measure (ι → Vec))) := hkm'.lintegral_prod_right'
    rw [lintegral_prod _ m4.aemeasurable]
    refine lintegral_congr fun q => ?_
    have m5 : Measurable fun w : (ι → Vec) × Vec => ∫⁻ v, k' ((q, w.2), (w.1, v)) :=
      m2.comp ((measurable_const.prodMk measurable_fst).prodMk measurable_snd)
    rw [lintegral_lintegral_swap (f := fun (r : ι → Vec) (η : Vec) =>
      ∫⁻ v, k' ((q, η), (r, v))) m5.aemeasurable]
    refine lintegral_congr fun η => ?_
    have m6 : Measurable fun b : (ι → Vec) × (ι → Vec) => k' ((q, η), b) :=
      hkm'.comp measurable_prodMk_left
    rw [lintegral_prod _ m6.aemeasurable]
  have e2 : ∫⁻ z, k' z ∂((g.mode.measure.prod g.mode.measure).prod
        ((volume : Measure (ι → Vec)).prod volume)) =
      ∫⁻ z, k' z ∂(((g.mode.measure.prod g.mode.measure).restrict g.mode.positive).prod
        (volume.prod volume)) := by
    have : ((g.mode.measure.prod g.mode.measure).restrict g.mode.positive).prod
        ((volume : Measure (ι → Vec)).prod (volume : Measure (ι → Vec))) =
        ((g.mode.measure.prod g.mode.measure).prod (volume.prod volume)).restrict
          (g.mode.positive ×ˢ Set.univ) := by
      rw [← Measure.prod_restrict, Measure.restrict_univ]
    rw [this, lintegral_support ((positive_measurable _).prod MeasurableSet.univ)]
    intro z hz
    exact hk0 _ fun h => hz ⟨h, trivial⟩
  have e3 : ∫⁻ z, k' z ∂(((g.mode.measure.prod g.mode.measure).restrict g.mode.positive).prod
        ((volume : Measure (ι → Vec)).prod (volume : Measure (ι → Vec)))) =
      ∫⁻ z, k z ∂(((g.mode.measure.prod g.mode.measure).restrict g.mode.positive).prod
        ((volume : Measure (ι → Vec)).prod (volume : Measure (ι → Vec)))) := by
    rw [← (physical_preserving g.mode).lintegral_comp hkm']
    refine lintegral_congr fun z => ?_
    by_cases hz : g.mode.Pos z.1.1
    · have : g.mode.scaled (g.mode.physical z).1.1 (g.mode.physical z).1.2 (g.mode.physical z).2.1
          (g.mode.physical z).2.2 = z := by
        unfold Mode.scaled Mode.physical
        simp only
        rw [speed_place (Mode.len_pos hz), place_speed (Mode.len_pos hz)]
      simp only [hk', this]
    · rw [hk0 z hz]
      exact hk0 _ hz
  have e4 : ∫⁻ z, k z ∂(((g.mode.measure.prod g.mode.measure).restrict g.mode.positive).prod
        ((volume : Measure (ι → Vec)).prod (volume : Measure (ι → Vec)))) =
      ∫⁻ z, k z ∂(g.mode.phase (unitCell ι)) := by
    have : ((g.mode.measure.prod g.mode.measure).restrict g.mode.positive).prod
        ((volume : Measure (ι → Vec)).prod (volume : Measure (ι → Vec))) =
        ((g.mode.measure.prod g.mode.measure).prod (volume.prod volume)).restrict
          (g.mode.positive ×ˢ Set.univ) := by
      rw [← Measure.prod_restrict, Measure.restrict_univ]
    rw [this, lintegral_support ((positive_measurable _).prod MeasurableSet.univ) (fun z hz =>
      hk0 _ fun h => hz ⟨h, trivial⟩), phase_restrict, lintegral_support (MeasurableSet.univ.prod
      (unitCell_measurable.prod MeasurableSet.univ)) (fun z hz => hk1 _ fun h =>
        hz ⟨trivial, h, trivial⟩)]
  exact e1.trans (e2.trans (e3.trans e4))

/-- The flow as an integral over the extended phase space. -/
theorem flow_eq (hy : y.OK F S U cell ok adm) (hfit : Fits y cell) (ht : Tame F S U adm)
    {draw : Nph → Vec → Nph} {σ : Vec} (hσ : ∀ a, g.mode.Used a → 0 < σ a) (hd : Draws g σ draw) :
    ∃ Z : ℝ≥0∞, Z ≠ 0 ∧ Z ≠ ∞ ∧ ∀ st : Vec → (ι → Vec) → MoveState ι P, Serves g st →
      ∀ A B : Set (Vec × (ι → Vec)), MeasurableSet A → MeasurableSet B →
        y.flow g F S U adm draw st A B = Z *
          ∫⁻ z, y.kernel g F S U adm A B z * y.excess g σ z.1.2 ∂(g.mode.phase (unitCell ι)) := by
  obtain ⟨Zv, hZv⟩ := deviates_lintegral (ι := ι) (m := y.m) hy.masses hy.temp
  obtain ⟨Ze, hZe0, hZe1, hZe⟩ := eta_lintegral g.mode hσ
  have hZv1 : Zv * ∫⁻ v, ENNReal.ofReal (Real.exp (-Integrate.kinetic y.m v / y.temp)) * 1 = 1 := by
    have : IsProbabilityMeasure (deviates ι) := by unfold deviates; infer_instance
    rw [← hZv (fun _ => 1) measurable_const, lintegral_const, measure_univ, one_mul]
  have hZv0 : Zv ≠ 0 := fun h0 => by rw [h0, zero_mul] at hZv1; simp at hZv1
  have hZvt : Zv ≠ ∞ := fun h0 => by
    rw [h0, ENNReal.top_mul'] at hZv1
    split at hZv1 <;> simp at hZv1
  refine ⟨Ze * Zv, mul_ne_zero hZe0 hZv0, ENNReal.mul_ne_top hZe1 hZvt,
    fun st hst A B hA hB => ?_⟩
  rw [← kernel_physical ht σ hA hB]
  -- the integrand without weights
  set f : Pt ι → ℝ≥0∞ := (y.counted g F S adm A B).indicator (y.accept g F S U) with hf
  have hfm : Measurable f := (accept_measurable ht).indicator (counted_measurable ht hA hB)
  have hkm := kernel_measurable (y := y) (g := g) ht hA hB
  have m2 : Measurable fun w : (Vec × (ι → Vec)) × Vec =>
      ∫⁻ v, y.kernel g F S U adm A B (g.mode.scaled w.1.1 w.2 w.1.2 v) * y.excess g σ w.2 := by
    have : Measurable fun w : ((Vec × (ι → Vec)) × Vec) × (ι → Vec) =>
        y.kernel g F S U adm A B (g.mode.scaled w.1.1.1 w.1.2 w.1.1.2 w.2) *
          y.excess g σ w.1.2 := by
      refine Measurable.mul ?_ ((excess_measurable σ).comp (measurable_snd.comp measurable_fst))
      exact (hkm.comp (scaled_measurable g.mode)).comp
        (((measurable_fst.comp (measurable_fst.comp measurable_fst)).prodMk
          (measurable_snd.comp measurable_fst)).prodMk
          ((measurable_snd.comp (measurable_fst.comp measurable_fst)).prodMk measurable_snd))
    exact this.lintegral_prod_right'
  have m3 : Measurable fun c : Vec × (ι → Vec) => ∫⁻ η, (∫⁻ v,
      y.kernel g F S U adm A B (g.mode.scaled c.1 η c.2 v) * y.excess g σ η) ∂g.mode.measure :=
    m2.lintegral_prod_right'
  have hsup : ∀ c : Vec × (ι → Vec), c ∉ g.mode.cells → ∫⁻ η, (∫⁻ v,
      y.kernel g F S U adm A B (g.mode.scaled c.1 η c.2 v) * y.excess g σ η) ∂g.mode.measure = 0 := by
    intro c hc
    have : ∀ η v, y.kernel g F S U adm A B (g.mode.scaled c.1 η c.2 v) = 0 := fun η v => by
      unfold Move.kernel
      refine Set.indicator_of_notMem (fun h => hc ⟨h.1.cell, ?_⟩) _
      have h1 := (place_mem (Mode.len_pos h.1.cell)).1 h.1.atoms
      have h2 : place (g.mode.len c.1) (speed (g.mode.len c.1) c.2) = c.2 :=
        place_speed (Mode.len_pos h.1.cell) _
      exact h2 ▸ h1
    simp only [this, zero_mul, lintegral_zero]
  rw [← lintegral_support (cells_measurable g.mode) hsup, ← lintegral_const_mul _ m3]
  unfold Move.flow
  refine setLIntegral_congr_fun (cells_measurable g.mode) fun c hc => ?_
  have hq := hc.1
  by_cases hcA : (g.mode.len c.1, c.2) ∈ A
  swap
  · simp only [Set.indicator_of_notMem hcA]
    have : ∀ η v, y.kernel g F S U adm A B (g.mode.scaled c.1 η c.2 v) = 0 := fun η v => by
      unfold Move.kernel
      refine Set.indicator_of_notMem (fun h => hcA ?_) _
      rw [← conf_scaled hq η c.2 v]
      exact h.2.1
    simp only [this, zero_mul, lintegral_zero, mul_zero]
  simp only [Set.indicator_of_mem hcA]
  -- the starting point
  have hstart : ∀ ge gs, y.start draw ge gs (st (g.mode.len c.1) c.2) c.1 =
      g.mode.scaled c.1 (fun a => if g.mode.Used a then σ a * ge a else 0) c.2
        (velocities y.m y.temp gs) := fun ge gs => by
    unfold Move.start
    have hdd := hd ((st (g.mode.len c.1) c.2).md.nph.setup y.toEnv (st (g.mode.len c.1) c.2).md.L)
      ge (hst.mode _ _) (hst.W _ _)
    rw [hst.pos, hst.mode, hdd]
    congr 1
    funext a
    change (if (st (g.mode.len c.1) c.2).md.nph.mode.Used a then σ a * ge a else
      (st (g.mode.len c.1) c.2).md.nph.eta a) = _
    rw [hst.mode]
    split
    · rfl
    · rename_i ha
      exact hst.unused _ _ _ ha
  have e2 : ∀ ge gs, prob (fun u => Fair g.mode adm (y.dyn F S g) g.dt y.nStep
        (y.start draw ge gs (st (g.mode.len c.1) c.2) c.1) ∧
      ∃ x', y.run draw ge gs u (st (g.mode.len c.1) c.2) = (x', true) ∧
        (x'.md.L, x'.md.sys.pos) ∈ B) =
      f (g.mode.scaled c.1 (fun a => if g.mode.Used a then σ a * ge a else 0) c.2
        (velocities y.m y.temp gs)) := by
    intro ge gs
    have hs := hstart ge gs
    by_cases hg : Fair g.mode adm (y.dyn F S g) g.dt y.nStep
        (y.start draw ge gs (st (g.mode.len c.1) c.2) c.1)
    · rw [prob_move hy hfit hd hst hc ge gs B hg]
      rw [hs] at hg ⊢
      by_cases hB' : g.mode.conf (y.trial g F S (g.mode.scaled c.1
          (fun a => if g.mode.Used a then σ a * ge a else 0) c.2 (velocities y.m y.temp gs))) ∈ B
      · rw [Set.indicator_of_mem hB', hf, Set.indicator_of_mem]
        refine ⟨hg, ?_, hB'⟩
        rw [conf_scaled hq]
        exact hcA
      · rw [Set.indicator_of_notMem hB', hf, Set.indicator_of_notMem]
        exact fun h => hB' h.2.2
    · rw [hf, Set.indicator_of_notMem fun h => hg (by rw [hs]; exact h.1), ← prob_false]
      exact prob_congr fun u _ _ => ⟨fun h => hg h.1, False.elim⟩
  simp only [e2]
  -- velocities
  have mv : ∀ η, Measurable fun v => f (g.mode.scaled c.1 η c.2 v) := fun η =>
    (hfm.comp (scaled_measurable g.mode)).comp ((measurable_const (a := (c.1, η))).prodMk
      ((measurable_const (a := c.2)).prodMk measurable_id))
  have e3 : ∀ η, ∫⁻ gs, f (g.mode.scaled c.1 η c.2 (velocities y.m y.temp gs)) ∂(deviates ι) =
      Zv * ∫⁻ v, ENNReal.ofReal (Real.exp (-Integrate.kinetic y.m v / y.temp)) *
        f (g.mode.scaled c.1 η c.2 v) := fun η => hZv _ (mv η)
  simp only [e3]
  -- momenta
  have mK : Measurable fun v : ι → Vec =>
      ENNReal.ofReal (Real.exp (-Integrate.kinetic y.m v / y.temp)) := by
    have : Measurable (Integrate.kinetic y.m) := by
      unfold Integrate.kinetic Integrate.sq
      fun_prop
    exact (Real.measurable_exp.comp (this.neg.div_const _)).ennreal_ofReal
  have me : Measurable fun η => Zv * ∫⁻ v, ENNReal.ofReal (Real.exp
      (-Integrate.kinetic y.m v / y.temp)) * f (g.mode.scaled c.1 η c.2 v) := by
    have : Measurable fun w : Vec × (ι → Vec) => ENNReal.ofReal (Real.exp
        (-Integrate.kinetic y.m w.2 / y.temp)) * f (g.mode.scaled c.1 w.1 c.2 w.2) :=
      (mK.comp measurable_snd).mul ((hfm.comp (scaled_measurable g.mode)).comp
        ((measurable_const.prodMk measurable_fst).prodMk
          (measurable_const.prodMk measurable_snd)))
    exact (this.lintegral_prod_right').const_mul _
  rw [hZe _ me]
  have mD : Measurable fun η => ENNReal.ofReal (Real.exp (-g.mode.exponent σ η)) :=
    (Real.measurable_exp.comp (exponent_measurable _ σ).neg).ennreal_ofReal
  rw [mul_left_comm, mul_assoc Ze Zv]
  congr 1
  have mDe : Measurable fun η => ENNReal.ofReal (Real.exp (-g.mode.exponent σ η)) *
      (Zv * ∫⁻ v, ENNReal.ofReal (Real.exp (-Integrate.kinetic y.m v / y.temp)) *
        f (g.mode.scaled c.1 η c.2 v)) := mD.mul me
  rw [← lintegral_const_mul _ mDe, ← lintegral_const_mul]
  swap
  · exact m2.comp (measurable_const.prodMk measurable_id)
  refine lintegral_congr fun η => ?_
  rw [mul_left_comm _ Zv, mul_left_comm _ Zv]
  congr 1
  rw [← lintegral_const_mul, ← lintegral_const_mul]
  rotate_left
  · exact (mK.mul (mv η)).const_mul _
  · exact mK.mul (mv η)
  refine lintegral_congr fun v => ?_
  -- weights
  have hHs : y.H g U (g.mode.scaled c.1 η c.2 v) = U (g.mode.len c.1) c.2 +
      Nph.kinetic y.m v + y.pressure * vol (g.mode.len c.1) + g.mode.kinetic g.W η := by
    unfold Move.H enthalpy Mode.scaled
    simp only
    rw [place_speed (Mode.len_pos hq), speed_place (Mode.len_pos hq)]
  unfold Move.kernel
  by_cases hc' : g.mode.scaled c.1 η c.2 v ∈ y.counted g F S adm A B
  · rw [Set.indicator_of_mem hc', hf, Set.indicator_of_mem hc']
    unfold rate Move.excess
    rw [mul_right_comm, ← ENNReal.ofReal_mul (Real.exp_pos _).le, ← Real.exp_add, ← mul_assoc,
      ← mul_assoc, ← ENNReal.ofReal_mul (Real.exp_pos _).le, ← Real.exp_add,
      ← ENNReal.ofReal_mul (Real.exp_pos _).le, ← Real.exp_add]
    unfold Move.accept
    congr 3
    rw [hHs, kinetic_same]
    ring
  · rw [Set.indicator_of_notMem hc', hf, Set.indicator_of_notMem hc']
    simp

/-- **Detailed balance** holds if the momenta have the distribution of Boltzmann. -/
theorem flow_balance (hy : y.OK F S U cell ok adm) (hfit : Fits y cell) (ht : Tame F S U adm)
    {draw : Nph → Vec → Nph} {σ : Vec} (hσ : ∀ a, g.mode.Used a → 0 < σ a) (hd : Draws g σ draw)
    (hT : ∀ a, g.mode.Used a → σ a ^ 2 * g.mode.c g.W a = y.temp)
    {st st' : Vec → (ι → Vec) → MoveState ι P} (hst : Serves g st) (hst' : Serves g st')
    {A B : Set (Vec × (ι → Vec))} (hA : MeasurableSet A) (hB : MeasurableSet B) :
    y.flow g F S U adm draw st A B = y.flow g F S U adm draw st' B A := by
  obtain ⟨Z, -, -, hZ⟩ := flow_eq (g := g) hy hfit ht hσ hd
  have h1 : ∀ η, y.excess g σ η = 1 := fun η => by
    have : g.mode.kinetic g.W η / y.temp = g.mode.exponent σ η := by
      unfold Mode.kinetic Mode.exponent
      rw [Finset.sum_div]
      refine Finset.sum_congr rfl fun a _ => ?_
      by_cases ha : g.mode.Used a
      · have hs := (hσ a ha).ne'
        have ht := hy.temp.ne'
        rw [if_pos ha]
        rw [← hT a ha] at ht ⊢
        have hc := right_ne_zero_of_mul ht
        field_simp
      · rw [if_neg ha, c_unused _ _ _ ha]
        simp
    unfold Move.excess
    rw [this, sub_self, Real.exp_zero, ENNReal.ofReal_one]
  rw [hZ st hst A B hA hB, hZ st' hst' B A hB hA, kernel_symm ht σ hA hB]
  simp only [h1]

end Verif.Nph
