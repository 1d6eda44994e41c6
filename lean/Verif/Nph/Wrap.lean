/-
The algorithm in one cell, with scaled positions in [0,1), and its relation to the
program; change from scaled to other coordinates.
-/
import Verif.Nph.Volume
import Mathlib.MeasureTheory.Measure.Lebesgue.EqHaar

set_option autoImplicit false

namespace Verif.Nph

open Verif.Boundary Verif.Integrate MeasureTheory
open Verif.McMoves (Reduction)
open scoped ENNReal

section Cell

variable (ι : Type)

/-- Translations by multiples of the lengths of the cell, scaled. -/
def units : AddSubgroup (ι → Vec) where
  carrier := {v | ∃ k : ι → Fin 3 → ℤ, v = fun i a => (k i a : ℝ)}
  zero_mem' := ⟨0, by funext i a; simp⟩
  add_mem' := by
    rintro _ _ ⟨k, rfl⟩ ⟨k', rfl⟩
    exact ⟨k + k', by funext i a; simp⟩
  neg_mem' := by
    rintro _ ⟨k, rfl⟩
    exact ⟨-k, by funext i a; simp⟩

/-- Scaled positions in the cell. -/
def unitCell : Set (ι → Vec) := {s | ∀ i a, s i a ∈ Set.Ico (0 : ℝ) 1}

variable {ι}

/-- The image in the cell. -/
noncomputable def fold (s : ι → Vec) : ι → Vec := fun i a => Int.fract (s i a)

theorem fold_reduction : Reduction (units ι) (unitCell ι) fold where
  mem s i a := ⟨Int.fract_nonneg _, Int.fract_lt_one _⟩
  class_ s := ⟨fun i a => -⌊s i a⌋, by
    funext i a
    simp only [Pi.sub_apply, fold, Int.fract]
    push_cast
    ring⟩
  unique x hx y hy := by
    rintro ⟨k, hk⟩
    funext i a
    have h := congrFun (congrFun hk i) a
    simp only [Pi.sub_apply] at h
    have hx := hx i a
    have hy := hy i a
    have h1 : (k i a : ℝ) < 1 := by linarith [hx.2, hy.1]
    have h2 : (-1 : ℝ) < k i a := by linarith [hx.1, hy.2]
    have h1' : k i a < 1 := by exact_mod_cast h1
    have h2' : -1 < k i a := by exact_mod_cast h2
    have : k i a = 0 := by omega
    rw [this] at h
    simp at h
    linarith

instance [Finite ι] : Countable (units ι) := by
  have : (Set.range fun k : ι → Fin 3 → ℤ => (fun i a => (k i a : ℝ) : ι → Vec)).Countable :=
    Set.countable_range _
  refine (this.mono ?_).to_subtype
  rintro _ ⟨k, rfl⟩
  exact ⟨k, rfl⟩

theorem unitCell_measurable [Finite ι] : MeasurableSet (unitCell ι) := by
  have : unitCell ι = ⋂ i, ⋂ a, (fun s : ι → Vec => s i a) ⁻¹' Set.Ico (0 : ℝ) 1 := by
    ext s
    simp [unitCell]
  rw [this]
  refine MeasurableSet.iInter fun i => MeasurableSet.iInter fun a => ?_
  exact ((measurable_pi_apply a).comp (measurable_pi_apply i)) measurableSet_Ico

end Cell

variable {ι : Type}

/-- Points that differ by translations of atoms. -/
def Alike (z z' : Pt ι) : Prop := z'.1 = z.1 ∧ z'.2.2 = z.2.2 ∧ z'.2.1 - z.2.1 ∈ units ι

theorem place_alike (L : Vec) {s s' : ι → Vec} (h : s' - s ∈ units ι) :
    Image (lattice L) (place L s) (place L s') := by
  obtain ⟨k, hk⟩ := h
  intro i
  refine ⟨k i, ?_⟩
  funext a
  have := congrFun (congrFun hk i) a
  simp only [Pi.sub_apply] at this
  simp only [Pi.sub_apply, place, latVec]
  rw [← this]
  ring

theorem alike_fold (s : ι → Vec) : fold s - s ∈ units ι := fold_reduction.class_ s

/-- Forces have the periodicity of cells of positive size. -/
structure Periodic (F : Vec → (ι → Vec) → ι → Vec) (S : Vec → (ι → Vec) → Vec) : Prop where
  F : ∀ (L : Vec) p q, (∀ a, 0 < L a) → Image (lattice L) p q → F L q = F L p
  S : ∀ (L : Vec) p q, (∀ a, 0 < L a) → Image (lattice L) p q → S L q = S L p

section Steps

variable [Fintype ι] {mode : Mode} {W extP : ℝ} {m : ι → ℝ} {F : Vec → (ι → Vec) → ι → Vec}
  {S : Vec → (ι → Vec) → Vec} {z z' : Pt ι}

theorem push_alike (hp : Periodic F S) (t : ℝ) (hz : mode.Pos z.1.1) (h : Alike z z') :
    Alike ((dyn mode W extP m F S).push t z) ((dyn mode W extP m F S).push t z') := by
  obtain ⟨h1, h2, h3⟩ := h
  refine ⟨?_, h2, h3⟩
  have hL : ∀ a, 0 < mode.len z.1.1 a := Mode.len_pos hz
  simp only [Dyn.push, dyn]
  rw [h1, h2, hp.S _ _ _ hL (place_alike _ h3)]

theorem kick_alike (hp : Periodic F S) (t : ℝ) (hz : mode.Pos z.1.1) (h : Alike z z') :
    Alike ((dyn mode W extP m F S).kick t z) ((dyn mode W extP m F S).kick t z') := by
  obtain ⟨h1, h2, h3⟩ := h
  refine ⟨h1, ?_, h3⟩
  have hL : ∀ a, 0 < mode.len z.1.1 a := Mode.len_pos hz
  simp only [Dyn.kick, dyn]
  rw [h1, h2, hp.F _ _ _ hL (place_alike _ h3)]

theorem grow_alike (t : ℝ) (h : Alike z z') :
    Alike ((dyn mode W extP m F S).grow t z) ((dyn mode W extP m F S).grow t z') := by
  obtain ⟨h1, h2, h3⟩ := h
  refine ⟨?_, h2, h3⟩
  simp only [Dyn.grow]
  rw [h1]

theorem move_alike (t : ℝ) (h : Alike z z') :
    Alike ((dyn mode W extP m F S).move t z) ((dyn mode W extP m F S).moveIn fold t z') := by
  obtain ⟨h1, h2, h3⟩ := h
  refine ⟨h1, h2, ?_⟩
  have e : ((dyn mode W extP m F S).move t z').2.1 - ((dyn mode W extP m F S).move t z).2.1 =
      z'.2.1 - z.2.1 := by
    simp only [Dyn.move]
    rw [h1, h2]
    funext i a
    simp only [Pi.sub_apply]
    ring
  have := (units ι).add_mem (alike_fold ((dyn mode W extP m F S).move t z').2.1) (e ▸ h3)
  simpa [Dyn.moveIn] using this

/-- A step in one cell and a step without reduction. -/
theorem step_alike (hp : Periodic F S) (dt : ℝ) (hz : mode.Pos z.1.1)
    (hz' : mode.Pos ((dyn mode W extP m F S).step dt z).1.1) (h : Alike z z') :
    Alike ((dyn mode W extP m F S).step dt z) ((dyn mode W extP m F S).stepIn fold dt z') := by
  unfold Dyn.step Dyn.stepIn Dyn.half
  refine push_alike hp _ hz' (kick_alike hp _ hz' (grow_alike _ (move_alike _ (grow_alike _
    (kick_alike hp _ hz (push_alike hp _ hz h))))))

theorem steps_alike (hp : Periodic F S) (dt : ℝ) (n : ℕ) (hz : mode.Pos z.1.1)
    (hs : ∀ k < n, mode.Pos
      ((dyn mode W extP m F S).step dt (((dyn mode W extP m F S).step dt)^[k] z)).1.1)
    (h : Alike z z') :
    Alike (((dyn mode W extP m F S).step dt)^[n] z)
      (((dyn mode W extP m F S).stepIn fold dt)^[n] z') := by
  induction n with
  | zero => exact h
  | succ n ih =>
    rw [Function.iterate_succ_apply', Function.iterate_succ_apply']
    refine step_alike hp dt ?_ (hs n (by omega)) (ih fun k hk => hs k (by omega))
    cases n with
    | zero => exact hz
    | succ n =>
      rw [Function.iterate_succ_apply']
      exact hs n (by omega)

/-- The image of a point with all atoms in one cell. -/
noncomputable def Pt.fold (z : Pt ι) : Pt ι := (z.1, (Nph.fold z.2.1, z.2.2))

omit [Fintype ι] in
theorem alike_pt (z : Pt ι) : Alike z z.fold := ⟨rfl, rfl, alike_fold _⟩

/-! ### The program in one cell -/

variable [DecidableEq ι] {P : Type} {e : Env ι P} {cell : Vec → Set (ι → Vec)}
  {ok : Vec → P → (ι → Vec) → Prop} {adm : Vec → (ι → Vec) → (ι → Vec) → Vec → Prop} {g : Nph}

omit [Fintype ι] [DecidableEq ι] in
theorem Exact.periodic_all (he : Exact e F S cell ok adm) : Periodic F S where
  F L p q hL h := (he.box L hL).periodic p q h
  S L p q hL h := he.periodic L p q hL h

omit [Fintype ι] [DecidableEq ι] in
theorem Rep.alike (he : Exact e F S cell ok adm) {x : State ι P} (h : Rep F ok e g x z)
    (hz : Alike z z') : Rep F ok e g x z' := by
  obtain ⟨h1, h2, h3⟩ := hz
  have hL : ∀ a, 0 < x.L a := by rw [h.L]; exact Mode.len_pos h.cell
  have hi := place_alike x.L h3
  refine ⟨h.dt, h.W, h.mode, h.ready, ?_, ?_, ?_, h.list, hi.symm.trans h.pos, ?_, ?_⟩
  · rw [h1]; exact h.eta
  · rw [h1]; exact h.cell
  · rw [h1]; exact h.L
  · rw [h2]; exact h.vel
  · rw [(he.box x.L hL).periodic _ _ hi]; exact h.force

/-- A simulation of `n` steps follows the algorithm in one cell. -/
theorem simulate_fold (he : Exact e F S cell ok adm) (shifts : ℕ → Bool) (n : ℕ) {x : State ι P}
    (hx : x.Start e cell ok)
    (hg : GoodRun x.nph.mode adm (e.dyn F S x.nph) x.nph.dt n x.pt) :
    Rep F ok e x.nph (simulate e shifts n x)
      (((e.dyn F S x.nph).stepIn fold x.nph.dt)^[n] x.pt.fold) :=
  (simulate_rep he shifts n hx hg).alike he
    (steps_alike he.periodic_all _ n (Mode.pos_coord hx.pos) (fun k hk => (hg k hk).whole)
      (alike_pt _))

end Steps

/-! ### Positions and velocities -/

section Physical

variable [Fintype ι]

/-- Positions, as a linear function of scaled positions. -/
noncomputable def placeEquiv (L : Vec) (hL : ∀ a, 0 < L a) : (ι → Vec) ≃ₗ[ℝ] (ι → Vec) where
  toFun := place L
  invFun := speed L
  map_add' x y := by funext i a; simp [place, mul_add]
  map_smul' c x := by funext i a; simp only [place, Pi.smul_apply, smul_eq_mul, RingHom.id_apply]; ring
  left_inv x := by
    funext i a
    have := (hL a).ne'
    simp only [place, speed]
    field_simp
  right_inv x := by
    funext i a
    have := (hL a).ne'
    simp only [place, speed]
    field_simp

/-- At fixed lengths, positions and velocities have the same volume as scaled positions
and velocities. -/
theorem place_speed_preserving (L : Vec) (hL : ∀ a, 0 < L a) :
    MeasurePreserving (fun b : (ι → Vec) × (ι → Vec) => (place L b.1, speed L b.2))
      (volume.prod volume) (volume.prod volume) := by
  have m1 : Measurable (place L : (ι → Vec) → ι → Vec) :=
    place_measurable measurable_const measurable_id
  have m2 : Measurable (speed L : (ι → Vec) → ι → Vec) :=
    speed_measurable measurable_const measurable_id
  set f : (ι → Vec) →ₗ[ℝ] (ι → Vec) := (placeEquiv (ι := ι) L hL).toLinearMap with hf
  set g : (ι → Vec) →ₗ[ℝ] (ι → Vec) := (placeEquiv (ι := ι) L hL).symm.toLinearMap with hg
  have hfg : LinearMap.det f * LinearMap.det g = 1 := by
    rw [← LinearMap.det_comp]
    have : f ∘ₗ g = LinearMap.id := by ext x; simp [hf, hg]
    rw [this, LinearMap.det_id]
  have d1 : LinearMap.det f ≠ 0 := left_ne_zero_of_mul_eq_one hfg
  have d2 : LinearMap.det g ≠ 0 := right_ne_zero_of_mul_eq_one hfg
  have e1 : Measure.map (place L) (volume : Measure (ι → Vec)) =
      ENNReal.ofReal |(LinearMap.det f)⁻¹| • volume :=
    Measure.map_linearMap_addHaar_eq_smul_addHaar volume d1
  have e2 : Measure.map (speed L) (volume : Measure (ι → Vec)) =
      ENNReal.ofReal |(LinearMap.det g)⁻¹| • volume :=
    Measure.map_linearMap_addHaar_eq_smul_addHaar volume d2
  refine ⟨(m1.comp measurable_fst).prodMk (m2.comp measurable_snd), ?_⟩
  have := Measure.map_prod_map (volume : Measure (ι → Vec)) (volume : Measure (ι → Vec)) m1 m2
  change Measure.map (Prod.map (place L) (speed L)) _ = _
  rw [← this, e1, e2, Measure.prod_smul_left, Measure.prod_smul_right, smul_smul,
    ← ENNReal.ofReal_mul (abs_nonneg _), ← abs_mul, ← mul_inv, hfg]
  simp

/-- Cells of positive size. -/
def Mode.positive (mode : Mode) : Set (Vec × Vec) := {c | mode.Pos c.1}

theorem positive_measurable (mode : Mode) : MeasurableSet mode.positive := by
  have h : ∀ a, MeasurableSet {c : Vec × Vec | 0 < c.1 a} := fun a =>
    measurableSet_lt measurable_const ((measurable_pi_apply a).comp measurable_fst)
  unfold Mode.positive
  cases mode with
  | orthorhombic =>
    simp only [Mode.Pos]
    rw [Set.ofPred_forall]
    exact MeasurableSet.iInter h
  | tetragonal => exact (h 0).inter (h 1)
  | cubic => exact h 0

/-- Coordinates and momenta of the cell, positions and velocities. -/
noncomputable def Mode.physical (mode : Mode) (z : Pt ι) : Pt ι :=
  (z.1, (place (mode.len z.1.1) z.2.1, speed (mode.len z.1.1) z.2.2))

/-- Volume of coordinates and momenta of the cell, positions and velocities is the volume of
the extended phase space in scaled coordinates. -/
theorem physical_preserving (mode : Mode) :
    MeasurePreserving (mode.physical (ι := ι))
      (((mode.measure.prod mode.measure).restrict mode.positive).prod (volume.prod volume))
      (((mode.measure.prod mode.measure).restrict mode.positive).prod (volume.prod volume)) := by
  refine (MeasurePreserving.id ((mode.measure.prod mode.measure).restrict
    mode.positive)).skew_product (g := fun (c : Vec × Vec) (b : (ι → Vec) × (ι → Vec)) =>
      (place (mode.len c.1) b.1, speed (mode.len c.1) b.2)) ?_ ?_
  · have hL : Measurable fun z : (Vec × Vec) × ((ι → Vec) × (ι → Vec)) => mode.len z.1.1 :=
      (len_measurable mode).comp (measurable_fst.comp measurable_fst)
    exact (place_measurable hL (measurable_fst.comp measurable_snd)).prodMk
      (speed_measurable hL (measurable_snd.comp measurable_snd))
  · rw [ae_restrict_iff' (positive_measurable mode)]
    exact Filter.Eventually.of_forall fun c hc =>
      (place_speed_preserving _ (Mode.len_pos hc)).map_eq

end Physical

end Verif.Nph
