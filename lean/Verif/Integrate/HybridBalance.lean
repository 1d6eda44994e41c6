/-
The hybrid move is reversible: detailed balance with respect to the Boltzmann
distribution of the energy without links.
-/
import Verif.Integrate.Hybrid
import Verif.McMoves.Balance
import Mathlib.MeasureTheory.Function.Floor

set_option autoImplicit false

namespace Verif.Integrate

open Verif.Boundary Verif.McCellList Verif.McPairList Verif.McCell Verif.Cpp Verif.Cpp.Out
open Verif.McMoves (metropolis prob prob_metropolis prob_congr prob_false rate rate_symm Reduction
  reductions cells_measurable mem_lattices mem_lattice reduce)
open MeasureTheory
open scoped ENNReal

variable {N : ℕ} {y : Hybrid N}

/-! ### Periodic images -/

/-- Positions in the primary cell. -/
def Hybrid.primary (y : Hybrid N) : Set (Fin N → Vec) := {q | ∀ i, InCell y.box.lengths (q i)}

/-- Every atom is moved to the primary cell. -/
noncomputable def Hybrid.red (y : Hybrid N) (v : Fin N → Vec) (i : Fin N) : Vec :=
  reduce y.box.toGen y.box.bravais (v i)

theorem image_iff (ok : y.OK) {p q : Fin N → Vec} :
    Image (lattice y.box.lengths) p q ↔ q - p ∈ McMoves.lattices (Fin N) y.box.bravais := by
  rw [mem_lattices]
  refine forall_congr' fun i => ?_
  rw [mem_lattice]
  constructor
  · rintro ⟨k, hk⟩
    exact ⟨k, by rw [ok.box.ok.latComb_eq, ← hk]; rfl⟩
  · rintro ⟨k, hk⟩
    exact ⟨k, by rw [← ok.box.ok.latComb_eq, hk]; rfl⟩

theorem primary_eq (ok : y.OK) : y.primary = McMoves.cells (Fin N) y.box.toGen := by
  ext q
  simp only [Hybrid.primary, McMoves.cells, McMoves.cell, Set.mem_ofPred_eq, Set.mem_pi,
    Set.mem_univ, true_imp_iff]
  refine forall_congr' fun i => ⟨fun h => ok.toOK.inUnit h, fun h j => ?_⟩
  have hp := ok.box.ok.pos j
  have := h j
  simp only [Ortho.toGen, ok.box.ok.inv, ← div_eq_mul_inv] at this
  rw [le_div_iff₀ hp, div_lt_iff₀ hp] at this
  simpa using this

theorem hybrid_reduction (ok : y.OK) :
    Reduction (McMoves.lattices (Fin N) y.box.bravais) y.primary y.red := by
  rw [primary_eq ok]
  exact reductions (geo_ortho ok.box)

theorem primary_measurable (ok : y.OK) : MeasurableSet y.primary := by
  rw [primary_eq ok]
  exact cells_measurable (geo_ortho ok.box)

theorem red_measurable (ok : y.OK) : Measurable y.red :=
  (hybrid_reduction ok).measurable (primary_measurable ok)

theorem red_image (ok : y.OK) (p : Fin N → Vec) : Image (lattice y.box.lengths) p (y.red p) :=
  (image_iff ok).2 ((hybrid_reduction ok).class_ p)

theorem image_red (ok : y.OK) {p q : Fin N → Vec} (hq : q ∈ y.primary)
    (h : Image (lattice y.box.lengths) p q) : y.red p = q :=
  (hybrid_reduction ok).eq hq ((image_iff ok).1 h)

/-- Points of phase space that differ by periodic images. -/
def Alike (Λ : AddSubgroup Vec) (z w : Phase (Fin N)) : Prop := Image Λ z.1 w.1 ∧ w.2 = z.2

theorem displacement_alike (ok : y.OK) (dt : ℝ) {z w : Phase (Fin N)}
    (h : Alike (lattice y.box.lengths) z w) :
    displacement y.world.m y.field dt w = displacement y.world.m y.field dt z := by
  unfold displacement kick
  dsimp only
  rw [h.2, field_periodic ok.toOK h.1]

theorem verlet_alike (ok : y.OK) (dt : ℝ) {z w : Phase (Fin N)}
    (h : Alike (lattice y.box.lengths) z w) :
    Alike (lattice y.box.lengths) (verlet y.world.m y.field dt z)
      (verlet y.world.m y.field dt w) := by
  have hd : ∀ x : Phase (Fin N), (verlet y.world.m y.field dt x).1 =
      fun i => x.1 i + displacement y.world.m y.field dt x i := fun x => rfl
  have h1 : Image (lattice y.box.lengths) (verlet y.world.m y.field dt z).1
      (verlet y.world.m y.field dt w).1 := by
    rw [hd, hd, displacement_alike ok dt h]
    exact h.1.add _
  refine ⟨h1, ?_⟩
  have hv : ∀ x : Phase (Fin N), (verlet y.world.m y.field dt x).2 = fun i =>
      x.2 i + (dt / 2 / y.world.m i) • y.field x.1 i +
        (dt / 2 / y.world.m i) • y.field (verlet y.world.m y.field dt x).1 i := fun x => rfl
  rw [hv, hv, h.2, field_periodic ok.toOK h.1, field_periodic ok.toOK h1]

theorem iterate_alike (ok : y.OK) (dt : ℝ) (n : ℕ) {z w : Phase (Fin N)}
    (h : Alike (lattice y.box.lengths) z w) :
    Alike (lattice y.box.lengths) ((verlet y.world.m y.field dt)^[n] z)
      ((verlet y.world.m y.field dt)^[n] w) := by
  induction n with
  | zero => exact h
  | succ n ih =>
    rw [Function.iterate_succ_apply', Function.iterate_succ_apply']
    exact verlet_alike ok dt ih

theorem fits_image {p q : Fin N → Vec} (h : Image (lattice y.box.lengths) p q) (hp : y.Fits p) :
    y.Fits q := fun q' hq' hin => hp q' (h.trans hq') hin

theorem mcFits_image {p q : Fin N → Vec} (h : Image (lattice y.box.lengths) p q)
    (hp : y.McFits p) : y.McFits q := fun q' hq' hin => hp q' (h.trans hq') hin

theorem admissible_alike (ok : y.OK) {ρ dt : ℝ} {n : ℕ} {z w : Phase (Fin N)}
    (h : Alike (lattice y.box.lengths) z w)
    (hz : Admissible (y.adm ρ) y.world.m y.field dt n z) :
    Admissible (y.adm ρ) y.world.m y.field dt n w := by
  intro k hk
  obtain ⟨h1, h2⟩ := hz k hk
  have ha := iterate_alike ok dt k h
  rw [displacement_alike ok dt ha]
  exact ⟨h1, fits_image (ha.1.add _) h2⟩

/-! ### The reversed move -/

/-- Trajectories that the program can follow in both directions: in no step an atom
moves by more than `ρ` in any direction, and no cell is filled. -/
structure Hybrid.Good (y : Hybrid N) (ρ dt : ℝ) (z : Phase (Fin N)) : Prop where
  mem : z.1 ∈ y.primary
  fits : y.Fits z.1
  mcFits : y.McFits z.1
  mcFits' : y.McFits (y.final dt z).1
  adm : Admissible (y.adm ρ) y.world.m y.field dt y.nStep z

/-- The simulation followed by the reversal of velocities, in the primary cell. -/
noncomputable def Hybrid.turn (y : Hybrid N) (dt : ℝ) (z : Phase (Fin N)) : Phase (Fin N) :=
  flip ((verletIn y.red y.world.m y.field dt)^[y.nStep] z)

theorem field_add (ok : y.OK) (x l : Fin N → Vec)
    (hl : l ∈ McMoves.lattices (Fin N) y.box.bravais) : y.field (x + l) = y.field x :=
  field_periodic ok.toOK ((image_iff ok).2 (by rwa [add_sub_cancel_left]))

theorem turn_eq (ok : y.OK) (dt : ℝ) {z : Phase (Fin N)} (hz : z.1 ∈ y.primary) :
    y.turn dt z = (y.red (y.final dt z).1, fun i => -(y.final dt z).2 i) := by
  have h := verletIn_iterate (hybrid_reduction ok) y.world.m (field_add ok) dt y.nStep z
  rw [(hybrid_reduction ok).self hz] at h
  unfold Hybrid.turn
  rw [h]
  rfl

theorem turn_alike (ok : y.OK) (dt : ℝ) {z : Phase (Fin N)} (hz : z.1 ∈ y.primary) :
    Alike (lattice y.box.lengths) (flip (y.final dt z)) (y.turn dt z) := by
  rw [turn_eq ok dt hz]
  exact ⟨red_image ok _, rfl⟩

theorem final_turn (ok : y.OK) (dt : ℝ) {z : Phase (Fin N)} (hz : z.1 ∈ y.primary) :
    Alike (lattice y.box.lengths) (flip z) (y.final dt (y.turn dt z)) := by
  have h := iterate_alike ok dt y.nStep (turn_alike ok dt hz)
  have e : (verlet y.world.m y.field dt)^[y.nStep] (flip (y.final dt z)) = flip z :=
    iterate_flip (verlet_flip _ _ _) _ _
  rw [e] at h
  exact h

theorem turn_mem (ok : y.OK) (dt : ℝ) {z : Phase (Fin N)} (hz : z.1 ∈ y.primary) :
    (y.turn dt z).1 ∈ y.primary := by
  rw [turn_eq ok dt hz]
  exact (hybrid_reduction ok).mem _

/-- Two moves with reversal of the velocities lead back. -/
theorem turn_turn (ok : y.OK) (dt : ℝ) {z : Phase (Fin N)} (hz : z.1 ∈ y.primary) :
    y.turn dt (y.turn dt z) = z := by
  rw [turn_eq ok dt (turn_mem ok dt hz)]
  have h := final_turn ok dt hz
  refine Prod.ext ?_ ?_
  · exact image_red ok hz h.1.symm
  · rw [h.2]
    funext i
    exact neg_neg _

theorem final_fits {ρ dt : ℝ} {z : Phase (Fin N)} (h : y.Good ρ dt z) : y.Fits (y.final dt z).1 := by
  unfold Hybrid.final
  rcases Nat.eq_zero_or_pos y.nStep with h0 | h0
  · rw [h0]
    exact h.fits
  · obtain ⟨k, hk⟩ : ∃ k, y.nStep = k + 1 := ⟨y.nStep - 1, by omega⟩
    rw [hk, Function.iterate_succ_apply']
    exact (h.adm k (by omega)).2

theorem Hybrid.Good.turn (ok : y.OK) {ρ dt : ℝ} {z : Phase (Fin N)} (h : y.Good ρ dt z) :
    y.Good ρ dt (y.turn dt z) where
  mem := turn_mem ok dt h.mem
  fits := fits_image (turn_alike ok dt h.mem).1 (final_fits h)
  mcFits := mcFits_image (turn_alike ok dt h.mem).1 h.mcFits'
  mcFits' := mcFits_image (final_turn ok dt h.mem).1 h.mcFits
  adm := admissible_alike ok (turn_alike ok dt h.mem) (admissible_reverse h.fits h.adm)

theorem good_turn_iff (ok : y.OK) {ρ dt : ℝ} {z : Phase (Fin N)} (hz : z.1 ∈ y.primary) :
    y.Good ρ dt (y.turn dt z) ↔ y.Good ρ dt z :=
  ⟨fun h => by have := h.turn ok; rwa [turn_turn ok dt hz] at this, fun h => h.turn ok⟩

theorem kinetic_neg {ι : Type} [Fintype ι] (m : ι → ℝ) (v : ι → Vec) :
    kinetic m (fun i => -v i) = kinetic m v := by
  unfold kinetic sq
  simp

theorem H_turn (ok : y.OK) (dt : ℝ) {z : Phase (Fin N)} (hz : z.1 ∈ y.primary) :
    y.H (y.turn dt z) = y.H (y.final dt z) := by
  rw [turn_eq ok dt hz]
  unfold Hybrid.H
  dsimp only
  rw [U_periodic ok (red_image ok _), kinetic_neg]

/-! ### Measurability -/

/-- The functions of the interactions are measurable. -/
structure Hybrid.Meas (y : Hybrid N) : Prop where
  force : ∀ t t', Measurable fun x => y.forceOverR x t t'
  energy : ∀ t t', Measurable fun x => y.pairE x t t'
  other : Measurable y.other
  rest : ∀ k, Measurable (y.restE k)

theorem normSq_measurable : Measurable normSq := by
  unfold normSq
  fun_prop

theorem round_measurable : Measurable fun x : ℝ => (round x : ℝ) := by
  have : (fun x : ℝ => (round x : ℝ)) = fun x : ℝ => ((⌊x + 1 / 2⌋ : ℤ) : ℝ) := by
    funext x
    rw [round_eq]
  rw [this]
  exact (measurable_of_countable fun k : ℤ => (k : ℝ)).comp
    (Int.measurable_floor.comp (measurable_id.add_const _))

theorem nearest_measurable (L : Vec) : Measurable (nearest L) := by
  refine measurable_pi_lambda _ fun i => ?_
  unfold nearest
  exact (measurable_pi_apply i).sub
    ((round_measurable.comp ((measurable_pi_apply i).div_const _)).mul_const _)

theorem separation_measurable (L : Vec) (i j : Fin N) :
    Measurable fun p : Fin N → Vec => nearest L (p i - p j) :=
  (nearest_measurable L).comp ((measurable_pi_apply i).sub (measurable_pi_apply j))

theorem one_measurable (hy : y.Meas) (t t' : ℕ) : Measurable (y.one t t') := by
  unfold PairSystem.one
  refine Measurable.ite (measurableSet_lt normSq_measurable measurable_const) ?_ measurable_const
  exact ((hy.force t t').comp normSq_measurable).smul measurable_id

theorem field_measurable (hy : y.Meas) : Measurable y.field := by
  classical
  refine measurable_pi_lambda _ fun i => ?_
  unfold PairSystem.field
  refine Measurable.add ?_ ((measurable_pi_apply i).comp hy.other)
  refine Finset.measurable_sum _ fun j _ => ?_
  split
  · exact (one_measurable hy _ _).comp (separation_measurable _ i j)
  · exact measurable_const

theorem U_measurable (hy : y.Meas) : Measurable y.U := by
  classical
  unfold Hybrid.U Hybrid.pairU
  refine Measurable.add ?_ (Finset.measurable_sum _ fun k _ => hy.rest k)
  refine Finset.measurable_sum _ fun i _ => Finset.measurable_sum _ fun j _ => ?_
  split
  · exact (hy.energy _ _).comp (normSq_measurable.comp (separation_measurable _ i j))
  · exact measurable_const

theorem kinetic_measurable {ι : Type} [Fintype ι] (m : ι → ℝ) : Measurable (kinetic m) := by
  unfold kinetic sq
  fun_prop

theorem H_measurable (hy : y.Meas) : Measurable y.H := by
  unfold Hybrid.H
  exact ((U_measurable hy).comp measurable_fst).add ((kinetic_measurable _).comp measurable_snd)

theorem kick_measurable {ι : Type} (m : ι → ℝ) {F : (ι → Vec) → ι → Vec} (hF : Measurable F)
    (h : ℝ) : Measurable (kick m F h) := by
  unfold kick
  refine measurable_fst.prodMk (measurable_pi_lambda _ fun i => ?_)
  exact ((measurable_pi_apply i).comp measurable_snd).add
    (((measurable_pi_apply i).comp (hF.comp measurable_fst)).const_smul (h / m i))

theorem drift_measurable {ι : Type} (h : ℝ) : Measurable (drift (ι := ι) h) := by
  unfold drift
  refine (measurable_pi_lambda _ fun i => ?_).prodMk measurable_snd
  exact ((measurable_pi_apply i).comp measurable_fst).add
    (((measurable_pi_apply i).comp measurable_snd).const_smul h)

theorem verlet_measurable (hy : y.Meas) (dt : ℝ) (n : ℕ) :
    Measurable ((verlet y.world.m y.field dt)^[n]) := by
  have : Measurable (verlet y.world.m y.field dt) :=
    (kick_measurable _ (field_measurable hy) _).comp
      ((drift_measurable _).comp (kick_measurable _ (field_measurable hy) _))
  exact this.iterate n

theorem displacement_measurable (hy : y.Meas) (dt : ℝ) :
    Measurable (displacement y.world.m y.field dt) := by
  unfold displacement
  refine measurable_pi_lambda _ fun i => ?_
  exact ((measurable_pi_apply i).comp (measurable_snd.comp
    (kick_measurable _ (field_measurable hy) _))).const_smul dt

/-- The condition that no cell is filled. -/
theorem roomy_measurable (ok : y.OK) (n : IVec) (cap : ℕ) :
    Measurable fun q : Fin N → Vec => ∀ (c : IVec) (T : Finset (Fin N)),
      (∀ i ∈ T, InBox n (y.box.toGen (q i)) c) → T.card < cap := by
  have hg : ∀ (i : Fin N) (j : Fin 3), Measurable fun q : Fin N → Vec => y.box.toGen (q i) j :=
    fun i j => (measurable_pi_apply j).comp
      ((McMoves.gen_continuous (geo_ortho ok.box)).measurable.comp (measurable_pi_apply i))
  refine Measurable.forall fun c => Measurable.forall fun T => Measurable.imp ?_ measurable_const
  refine Measurable.forall fun i => Measurable.imp measurable_const ?_
  unfold InBox
  refine Measurable.forall fun j => Measurable.and ?_ ?_
  · exact measurableSet_setOfPred.1 (measurableSet_le measurable_const (hg i j))
  · exact measurableSet_setOfPred.1 (measurableSet_lt (hg i j) measurable_const)

theorem fits_iff (ok : y.OK) (z : Fin N → Vec) : y.Fits z ↔ y.Roomy (y.red z) := by
  constructor
  · intro h
    exact h _ (red_image ok z) ((hybrid_reduction ok).mem z)
  · intro h q hq hin
    rw [← image_red ok hin hq]
    exact h

theorem fits_measurable (ok : y.OK) : Measurable y.Fits := by
  obtain ⟨s0, hs⟩ := (setup_isSome y.box.lengths (y.rc + y.skin)).2 (by
    have := ok.rc
    have := ok.skin
    linarith)
  have : y.Fits = (fun q : Fin N → Vec => ∀ (c : IVec) (T : Finset (Fin N)),
      (∀ i ∈ T, InBox s0.n (y.box.toGen (q i)) c) → T.card < y.cellCap) ∘ y.red := by
    funext z
    refine propext ((fits_iff ok z).trans ?_)
    unfold PairSystem.Roomy
    rw [hs]
    simp
  rw [this]
  exact (roomy_measurable ok _ _).comp (red_measurable ok)

theorem mcFits_measurable (ok : y.OK) : Measurable y.McFits := by
  obtain ⟨s0, hs⟩ := (setup_isSome y.box.lengths y.rc).2 ok.rcpos
  have : y.McFits = (fun q : Fin N → Vec => ∀ (c : IVec) (T : Finset (Fin N)),
      (∀ i ∈ T, InBox s0.n (y.box.toGen (q i)) c) → T.card < y.cellCap) ∘ y.red := by
    funext z
    refine propext ?_
    unfold Hybrid.McFits
    rw [hs]
    constructor
    · intro h
      exact h _ (red_image ok z) ((hybrid_reduction ok).mem z) s0 rfl
    · rintro h q hq hin s1 h1
      cases h1
      rw [← image_red ok hin hq]
      exact h
  rw [this]
  exact (roomy_measurable ok _ _).comp (red_measurable ok)

theorem good_measurable (ok : y.OK) (hy : y.Meas) (ρ dt : ℝ) : Measurable (y.Good ρ dt) := by
  have : y.Good ρ dt = fun z => z.1 ∈ y.primary ∧ y.Fits z.1 ∧ y.McFits z.1 ∧
      y.McFits (y.final dt z).1 ∧
      ∀ k : ℕ, k < y.nStep → (∀ i j, |displacement y.world.m y.field dt
        ((verlet y.world.m y.field dt)^[k] z) i j| ≤ ρ) ∧
        y.Fits fun i => ((verlet y.world.m y.field dt)^[k] z).1 i +
          displacement y.world.m y.field dt ((verlet y.world.m y.field dt)^[k] z) i := by
    funext z
    exact propext ⟨fun h => ⟨h.1, h.2, h.3, h.4, h.5⟩, fun h => ⟨h.1, h.2.1, h.2.2.1, h.2.2.2.1,
      h.2.2.2.2⟩⟩
  rw [this]
  have hv := verlet_measurable hy dt
  have hd := displacement_measurable hy dt
  refine Measurable.and ?_ (Measurable.and ((fits_measurable ok).comp measurable_fst)
    (Measurable.and ((mcFits_measurable ok).comp measurable_fst)
    (Measurable.and ((mcFits_measurable ok).comp (measurable_fst.comp (hv y.nStep))) ?_)))
  · exact measurableSet_setOfPred.1 (measurable_fst (primary_measurable ok))
  · refine Measurable.forall fun k => Measurable.imp measurable_const (Measurable.and ?_ ?_)
    · refine Measurable.forall fun i => Measurable.forall fun j => ?_
      refine measurableSet_setOfPred.1 (measurableSet_le ?_ measurable_const)
      exact continuous_abs.measurable.comp ((measurable_pi_apply j).comp ((measurable_pi_apply i).comp
        (hd.comp (hv k))))
    · refine (fits_measurable ok).comp (measurable_pi_lambda _ fun i => ?_)
      exact ((measurable_pi_apply i).comp (measurable_fst.comp (hv k))).add
        ((measurable_pi_apply i).comp (hd.comp (hv k)))

/-! ### Detailed balance -/

/-- The probability weight of being in `A`, and of reaching a configuration in `B` by
a move that is accepted, along a trajectory that can be followed in both
directions.  `st p`: the state of the program in which the atoms are at `p`. -/
noncomputable def Hybrid.flow (y : Hybrid N) (ρ dt : ℝ) (st : (Fin N → Vec) → HState N)
    (A B : Set (Fin N → Vec)) : ℝ≥0∞ :=
  ∫⁻ p in y.primary, A.indicator (fun p => ENNReal.ofReal (Real.exp (-(1 / y.temp) * y.U p)) *
    ∫⁻ gs, prob (fun u => y.Good ρ dt (y.start p gs) ∧
      ∃ x', y.move gs u (st p) = ok (x', true) ∧ x'.sys.pos ∈ B) ∂(deviates (Fin N))) p

/-- Points of phase space counted by the flow. -/
def Hybrid.counted (y : Hybrid N) (ρ dt : ℝ) (A B : Set (Fin N → Vec)) : Set (Phase (Fin N)) :=
  {z | y.Good ρ dt z ∧ z.1 ∈ A ∧ (y.turn dt z).1 ∈ B}

/-- Their weight. -/
noncomputable def Hybrid.kernel (y : Hybrid N) (ρ dt : ℝ) (A B : Set (Fin N → Vec)) :
    Phase (Fin N) → ℝ≥0∞ :=
  (y.counted ρ dt A B).indicator fun z => rate (1 / y.temp) (y.H z) (y.H (y.turn dt z))

theorem turn_preserving (ok : y.OK) (hy : y.Meas) (dt : ℝ) :
    MeasurePreserving (y.turn dt) (phaseVolume y.primary) (phaseVolume y.primary) :=
  flip_preserving.comp ((verletIn_preserving (hybrid_reduction ok) (primary_measurable ok) y.world.m
    (field_measurable hy) dt).iterate y.nStep)

theorem counted_measurable (ok : y.OK) (hy : y.Meas) (ρ dt : ℝ) {A B : Set (Fin N → Vec)}
    (hA : MeasurableSet A) (hB : MeasurableSet B) : MeasurableSet (y.counted ρ dt A B) := by
  have h1 : MeasurableSet {z | y.Good ρ dt z} := measurableSet_setOfPred.2 (good_measurable ok hy ρ dt)
  exact h1.inter ((measurable_fst hA).inter
    ((measurable_fst.comp (turn_preserving ok hy dt).measurable) hB))

theorem rate_measurable (ok : y.OK) (hy : y.Meas) (dt : ℝ) :
    Measurable fun z => rate (1 / y.temp) (y.H z) (y.H (y.turn dt z)) := by
  have h1 := H_measurable hy
  have h2 := h1.comp (turn_preserving ok hy dt).measurable
  have h3 : Measurable fun z => ENNReal.ofReal (Real.exp (-(1 / y.temp) * y.H z)) :=
    (Real.measurable_exp.comp (h1.const_mul _)).ennreal_ofReal
  have h4 : Measurable fun z => ENNReal.ofReal (min 1 (Real.exp (-(1 / y.temp) *
      (y.H (y.turn dt z) - y.H z)))) :=
    (measurable_const.min (Real.measurable_exp.comp ((h2.sub h1).const_mul _))).ennreal_ofReal
  exact h3.mul h4

theorem kernel_measurable (ok : y.OK) (hy : y.Meas) (ρ dt : ℝ) {A B : Set (Fin N → Vec)}
    (hA : MeasurableSet A) (hB : MeasurableSet B) : Measurable (y.kernel ρ dt A B) :=
  (rate_measurable ok hy dt).indicator (counted_measurable ok hy ρ dt hA hB)

theorem kernel_turn (ok : y.OK) (ρ dt : ℝ) (A B : Set (Fin N → Vec)) {z : Phase (Fin N)}
    (hz : z.1 ∈ y.primary) : y.kernel ρ dt A B (y.turn dt z) = y.kernel ρ dt B A z := by
  have hiff : y.turn dt z ∈ y.counted ρ dt A B ↔ z ∈ y.counted ρ dt B A := by
    unfold Hybrid.counted
    simp only [Set.mem_ofPred_eq, turn_turn ok dt hz, good_turn_iff ok hz]
    tauto
  unfold Hybrid.kernel
  by_cases h : z ∈ y.counted ρ dt B A
  · rw [Set.indicator_of_mem h, Set.indicator_of_mem (hiff.2 h), turn_turn ok dt hz, rate_symm]
  · rw [Set.indicator_of_notMem h, Set.indicator_of_notMem fun h' => h (hiff.1 h')]

theorem phase_ae (ok : y.OK) : ∀ᵐ z ∂(phaseVolume y.primary), z.1 ∈ y.primary := by
  have e : phaseVolume y.primary = ((volume : Measure (Fin N → Vec)).prod
      (volume : Measure (Fin N → Vec))).restrict (y.primary ×ˢ Set.univ) := by
    unfold phaseVolume
    rw [← Measure.prod_restrict, Measure.restrict_univ]
  rw [e]
  filter_upwards [ae_restrict_mem ((primary_measurable ok).prod MeasurableSet.univ)] with z hz
  exact hz.1

theorem kernel_symm (ok : y.OK) (hy : y.Meas) (ρ dt : ℝ) {A B : Set (Fin N → Vec)}
    (hA : MeasurableSet A) (hB : MeasurableSet B) :
    ∫⁻ z, y.kernel ρ dt A B z ∂(phaseVolume y.primary) =
      ∫⁻ z, y.kernel ρ dt B A z ∂(phaseVolume y.primary) := by
  rw [← (turn_preserving ok hy dt).lintegral_comp (kernel_measurable ok hy ρ dt hA hB)]
  refine lintegral_congr_ae ?_
  filter_upwards [phase_ae ok] with z hz
  exact kernel_turn ok ρ dt A B hz

/-- The probability that a move is accepted and leads to `B`. -/
theorem prob_move (ok : y.OK) {ρ : ℝ} (hρ : ∀ j, y.skin + ρ < y.box.lengths j) {dt : ℝ}
    {x : HState N} (hdt : x.nve.dt = dt) (gs : Fin N → Vec) (B : Set (Fin N → Vec))
    (hg : y.Good ρ dt (y.start x.sys.pos gs)) :
    prob (fun u => y.Good ρ dt (y.start x.sys.pos gs) ∧
        ∃ x', y.move gs u x = Out.ok (x', true) ∧ x'.sys.pos ∈ B) =
      B.indicator (fun _ => ENNReal.ofReal (min 1 (Real.exp (-(1 / y.temp) *
        (y.H (y.turn dt (y.start x.sys.pos gs)) - y.H (y.start x.sys.pos gs))))))
        (y.turn dt (y.start x.sys.pos gs)).1 := by
  subst hdt
  set z := y.start x.sys.pos gs with hz
  have hmem : z.1 ∈ y.primary := hg.mem
  have hL := ok.box.ok.pos
  have hnear : ∀ i, NearCell y.box.lengths (x.sys.pos i) := fun i j => by
    have := hg.mem i j
    have := hL j
    have e : z.1 i j = x.sys.pos i j := rfl
    constructor <;> linarith
  have hmove := fun u => hybridMove_eq ok hρ x hnear hg.fits gs u hg.adm hg.mcFits'
  dsimp only at hmove
  rw [← hz] at hmove
  rw [H_turn ok _ hmem]
  set a := Real.exp (-(1 / y.temp) * (y.H (y.final x.nve.dt z) - y.H z)) with ha
  have hev : ∀ u, (y.Good ρ x.nve.dt z ∧ ∃ x', y.move gs u x = Out.ok (x', true) ∧
      x'.sys.pos ∈ B) ↔ metropolis a u = true ∧ (y.turn x.nve.dt z).1 ∈ B := by
    intro u
    obtain ⟨x', e, -, -, hacc, -⟩ := hmove u
    have hpos : metropolis a u = true → x'.sys.pos = (y.turn x.nve.dt z).1 := fun hm => by
      obtain ⟨h1, h2, -⟩ := hacc hm
      rw [turn_eq ok _ hmem]
      exact (image_red ok h1 h2).symm
    constructor
    · rintro ⟨-, x1, e1, hB⟩
      rw [e] at e1
      simp only [Out.ok.injEq, Prod.mk.injEq] at e1
      rw [← e1.1, hpos e1.2] at hB
      exact ⟨e1.2, hB⟩
    · rintro ⟨hm, hB⟩
      refine ⟨hg, x', ?_, ?_⟩
      · rw [e, hm]
      · rw [hpos hm]
        exact hB
  rw [prob_congr fun u _ _ => hev u]
  by_cases hB : (y.turn x.nve.dt z).1 ∈ B
  · rw [Set.indicator_of_mem hB]
    simp only [hB, and_true]
    exact prob_metropolis (Real.exp_pos _).le
  · rw [Set.indicator_of_notMem hB]
    simp only [hB, and_false]
    exact prob_false

theorem flow_eq (ok : y.OK) (hy : y.Meas) {ρ : ℝ} (hρ : ∀ j, y.skin + ρ < y.box.lengths j) (dt : ℝ) :
    ∃ Z : ℝ≥0∞, Z ≠ 0 ∧ ∀ (st : (Fin N → Vec) → HState N), (∀ p, (st p).sys.pos = p ∧ (st p).nve.dt = dt) →
      ∀ A B : Set (Fin N → Vec), MeasurableSet A → MeasurableSet B →
        y.flow ρ dt st A B = Z * ∫⁻ z, y.kernel ρ dt A B z ∂(phaseVolume y.primary) := by
  obtain ⟨Z, hZ⟩ := deviates_lintegral (ι := Fin N) (m := y.world.m) (fun i => ok.masses _) ok.temp
  have hZ0 : Z ≠ 0 := fun h0 => by
    have h1 := hZ (fun _ => 1) measurable_const
    have : IsProbabilityMeasure (deviates (Fin N)) := by unfold deviates; infer_instance
    rw [h0, zero_mul, lintegral_const, measure_univ] at h1
    simp at h1
  refine ⟨Z, hZ0, fun st hst A B hA hB => ?_⟩
  have hk := kernel_measurable ok hy ρ dt hA hB
  have e1 : ∫⁻ z, y.kernel ρ dt A B z ∂(phaseVolume y.primary) =
      ∫⁻ p in y.primary, ∫⁻ v, y.kernel ρ dt A B (p, v) := by
    unfold phaseVolume
    exact lintegral_prod _ hk.aemeasurable
  have hk2 : Measurable fun p => ∫⁻ v, y.kernel ρ dt A B (p, v) := hk.lintegral_prod_right'
  rw [e1, ← lintegral_const_mul _ hk2]
  unfold Hybrid.flow
  refine setLIntegral_congr_fun (primary_measurable ok) fun p hp => ?_
  by_cases hpA : p ∈ A
  swap
  · rw [Set.indicator_of_notMem hpA]
    have : ∀ v, y.kernel ρ dt A B (p, v) = 0 := fun v =>
      Set.indicator_of_notMem (fun h => hpA h.2.1) _
    simp only [this, lintegral_zero, mul_zero]
  rw [Set.indicator_of_mem hpA]
  classical
  set f : (Fin N → Vec) → ℝ≥0∞ := fun v => (y.counted ρ dt A B).indicator (fun z =>
    ENNReal.ofReal (min 1 (Real.exp (-(1 / y.temp) * (y.H (y.turn dt z) - y.H z))))) (p, v) with hf
  have hfm : Measurable f := by
    have h1 := H_measurable hy
    have h2 := h1.comp (turn_preserving ok hy dt).measurable
    have : Measurable ((y.counted ρ dt A B).indicator fun z =>
        ENNReal.ofReal (min 1 (Real.exp (-(1 / y.temp) * (y.H (y.turn dt z) - y.H z))))) :=
      (measurable_const.min (Real.measurable_exp.comp
        ((h2.sub h1).const_mul _))).ennreal_ofReal.indicator (counted_measurable ok hy ρ dt hA hB)
    exact this.comp measurable_prodMk_left
  have e2 : ∀ gs, prob (fun u => y.Good ρ dt (y.start p gs) ∧
      ∃ x', y.move gs u (st p) = Out.ok (x', true) ∧ x'.sys.pos ∈ B) =
      f (velocities y.world.m y.temp gs) := by
    intro gs
    have hs : (p, velocities y.world.m y.temp gs) = y.start p gs := rfl
    simp only [hf, hs]
    by_cases hg : y.Good ρ dt (y.start p gs)
    · have h := prob_move ok hρ (hst p).2 gs B (by rw [(hst p).1]; exact hg)
      rw [(hst p).1] at h
      rw [h]
      by_cases hB' : (y.turn dt (y.start p gs)).1 ∈ B
      · rw [Set.indicator_of_mem hB', Set.indicator_of_mem]
        exact ⟨hg, hpA, hB'⟩
      · rw [Set.indicator_of_notMem hB', Set.indicator_of_notMem]
        exact fun h => hB' h.2.2
    · rw [Set.indicator_of_notMem fun h => hg h.1, ← prob_false]
      exact prob_congr fun u _ _ => ⟨fun h => hg h.1, False.elim⟩
  simp only [e2]
  rw [hZ f hfm, mul_left_comm, ← lintegral_const_mul]
  swap
  · refine Measurable.mul ?_ hfm
    exact (Real.measurable_exp.comp ((kinetic_measurable _).neg.div_const _)).ennreal_ofReal
  congr 1
  refine lintegral_congr fun v => ?_
  rw [← mul_assoc, ← ENNReal.ofReal_mul (Real.exp_pos _).le, ← Real.exp_add]
  have e3 : -(1 / y.temp) * y.U p + -kinetic y.world.m v / y.temp = -(1 / y.temp) * y.H (p, v) := by
    unfold Hybrid.H
    ring
  rw [e3]
  simp only [hf, Hybrid.kernel]
  by_cases hc : (p, v) ∈ y.counted ρ dt A B
  · rw [Set.indicator_of_mem hc, Set.indicator_of_mem hc]
    rfl
  · rw [Set.indicator_of_notMem hc, Set.indicator_of_notMem hc, mul_zero]

/-- **Detailed balance.** -/
theorem flow_balance (ok : y.OK) (hy : y.Meas) {ρ : ℝ} (hρ : ∀ j, y.skin + ρ < y.box.lengths j)
    (dt : ℝ) {st st' : (Fin N → Vec) → HState N}
    (hst : ∀ p, (st p).sys.pos = p ∧ (st p).nve.dt = dt)
    (hst' : ∀ p, (st' p).sys.pos = p ∧ (st' p).nve.dt = dt) {A B : Set (Fin N → Vec)}
    (hA : MeasurableSet A) (hB : MeasurableSet B) :
    y.flow ρ dt st A B = y.flow ρ dt st' B A := by
  obtain ⟨Z, -, hZ⟩ := flow_eq ok hy hρ dt
  rw [hZ st hst A B hA hB, hZ st' hst' B A hB hA, kernel_symm ok hy ρ dt hA hB]

end Verif.Integrate
