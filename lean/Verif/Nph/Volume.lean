/-
The algorithm of the integrator at constant pressure preserves volumes of the extended
phase space.
-/
import Verif.Nph.Refine
import Mathlib.MeasureTheory.Measure.Dirac

set_option autoImplicit false

namespace Verif.Nph

open Verif.Boundary Verif.Integrate Verif.McMoves MeasureTheory
open scoped ENNReal

section Skew

variable {α β γ : Type} [MeasurableSpace α] [MeasurableSpace β] [MeasurableSpace γ]
  {μ : Measure α} {ν : Measure β} {κ : Measure γ} [SFinite μ] [SFinite ν] [SFinite κ]

/-- The second component is changed by a map that depends on the first. -/
theorem skew_snd {g : α → β → β} (hm : Measurable (Function.uncurry g))
    (hg : ∀ a, MeasurePreserving (g a) ν ν) :
    MeasurePreserving (fun z : α × β => (z.1, g z.1 z.2)) (μ.prod ν) (μ.prod ν) :=
  (MeasurePreserving.id μ).skew_product (g := g) hm
    (Filter.Eventually.of_forall fun a => (hg a).map_eq)

/-- The first component is changed by a map that depends on the second. -/
theorem skew_fst {g : β → α → α} (hm : Measurable (Function.uncurry g))
    (hg : ∀ b, MeasurePreserving (g b) μ μ) :
    MeasurePreserving (fun z : α × β => (g z.2 z.1, z.2)) (μ.prod ν) (μ.prod ν) := by
  have h := skew_snd (μ := ν) (ν := μ) hm hg
  have s1 : MeasurePreserving (Prod.swap : α × β → β × α) (μ.prod ν) (ν.prod μ) :=
    Measure.measurePreserving_swap
  have s2 : MeasurePreserving (Prod.swap : β × α → α × β) (ν.prod μ) (μ.prod ν) :=
    Measure.measurePreserving_swap
  exact s2.comp (h.comp s1)

end Skew

/-- Coordinates of the cell that are used. -/
def Mode.Used : Mode → Fin 3 → Prop
  | .orthorhombic, _ => True
  | .tetragonal, a => a ≠ 2
  | .cubic, a => a = 0

instance (mode : Mode) (a : Fin 3) : Decidable (mode.Used a) := by
  cases mode <;> unfold Mode.Used <;> infer_instance

/-- Measure of the coordinates that are used; the others are zero. -/
noncomputable def Mode.measure (mode : Mode) : Measure Vec :=
  Measure.pi fun a => if mode.Used a then volume else Measure.dirac 0

theorem used_sigmaFinite (mode : Mode) (a : Fin 3) :
    SigmaFinite (if mode.Used a then (volume : Measure ℝ) else Measure.dirac 0) := by
  split <;> infer_instance

instance (mode : Mode) : SigmaFinite mode.measure := by
  have := used_sigmaFinite mode
  unfold Mode.measure
  infer_instance

/-- A translation of the coordinates that are used. -/
theorem translate_preserving (mode : Mode) {v : Vec} (hv : ∀ a, ¬ mode.Used a → v a = 0) :
    MeasurePreserving (fun q : Vec => fun a => q a + v a) mode.measure mode.measure := by
  have := used_sigmaFinite mode
  unfold Mode.measure
  refine measurePreserving_pi (f := fun (a : Fin 3) (x : ℝ) => x + v a) _ _ fun a => ?_
  by_cases h : mode.Used a
  · simp only [h, if_true]
    exact measurePreserving_add_right volume _
  · simp only [h, if_false, hv a h, add_zero]
    exact MeasurePreserving.id _

theorem c_unused (mode : Mode) (W : ℝ) (a : Fin 3) (h : ¬ mode.Used a) : mode.c W a = 0 := by
  cases mode with
  | orthorhombic => exact absurd trivial h
  | tetragonal =>
    have : a = 2 := not_not.1 h
    subst this
    simp [Mode.c]
  | cubic =>
    have h' : a ≠ 0 := h
    fin_cases a
    · exact absurd rfl h'
    · simp [Mode.c]
    · simp [Mode.c]

theorem force_unused (mode : Mode) (L p : Vec) (a : Fin 3) (h : ¬ mode.Used a) :
    mode.force L p a = 0 := by
  cases mode with
  | orthorhombic => exact absurd trivial h
  | tetragonal =>
    have : a = 2 := not_not.1 h
    subst this
    simp [Mode.force]
  | cubic =>
    have h' : a ≠ 0 := h
    fin_cases a
    · exact absurd rfl h'
    · simp [Mode.force]
    · simp [Mode.force]

theorem vol_measurable : Measurable vol := by unfold vol; fun_prop

theorem len_measurable (mode : Mode) : Measurable mode.len := by
  refine measurable_pi_lambda _ fun a => ?_
  cases mode with
  | orthorhombic => exact measurable_pi_apply a
  | tetragonal =>
    fin_cases a
    · exact measurable_pi_apply 0
    · exact measurable_pi_apply 1
    · exact measurable_pi_apply 1
  | cubic => exact (measurable_pi_apply 0).pow_const _

theorem force_measurable (mode : Mode) {α : Type} [MeasurableSpace α] {L p : α → Vec}
    (hL : Measurable L) (hp : Measurable p) : Measurable fun x => mode.force (L x) (p x) := by
  have h1 : ∀ a, Measurable fun x => L x a := fun a => (measurable_pi_apply a).comp hL
  have h2 : ∀ a, Measurable fun x => p x a := fun a => (measurable_pi_apply a).comp hp
  have hv : Measurable fun x => vol (L x) := vol_measurable.comp hL
  refine measurable_pi_lambda _ fun a => ?_
  cases mode with
  | orthorhombic => exact (hv.div (h1 a)).mul (h2 a)
  | tetragonal =>
    fin_cases a
    · exact (hv.div (h1 0)).mul (h2 0)
    · exact (hv.div (h1 1)).mul ((h2 1).add (h2 2))
    · exact measurable_const
  | cubic =>
    fin_cases a
    · exact (((h2 0).add (h2 1)).add (h2 2)).div_const _
    · exact measurable_const
    · exact measurable_const

section Phase

variable {ι : Type} [Fintype ι] {C : Set (ι → Vec)} {red : (ι → Vec) → ι → Vec}
  {Λ : AddSubgroup (ι → Vec)}

/-- Volume of the extended phase space, with scaled positions in the set `C`. -/
noncomputable def Mode.phase (mode : Mode) (C : Set (ι → Vec)) : Measure (Pt ι) :=
  (mode.measure.prod mode.measure).prod ((volume.restrict C).prod volume)

/-- Motion of the atoms followed by a reduction to `C`. -/
noncomputable def Dyn.moveIn (y : Dyn ι) (red : (ι → Vec) → ι → Vec) (h : ℝ) (z : Pt ι) : Pt ι :=
  (z.1, (red (y.move h z).2.1, z.2.2))

/-- The algorithm, with reduction to `C`. -/
noncomputable def Dyn.stepIn (y : Dyn ι) (red : (ι → Vec) → ι → Vec) (dt : ℝ) (z : Pt ι) : Pt ι :=
  y.push (dt / 2) (y.kick (dt / 2) (y.grow (dt / 2) (y.moveIn red dt (y.half dt z))))

/-- Forces and stress are measurable functions. -/
structure Meas (F : Vec → (ι → Vec) → ι → Vec) (S : Vec → (ι → Vec) → Vec) : Prop where
  F : Measurable fun z : Vec × (ι → Vec) => F z.1 z.2
  S : Measurable fun z : Vec × (ι → Vec) => S z.1 z.2

variable {mode : Mode} {W extP : ℝ} {m : ι → ℝ} {F : Vec → (ι → Vec) → ι → Vec}
  {S : Vec → (ι → Vec) → Vec}

omit [Fintype ι] in
theorem place_measurable {α : Type} [MeasurableSpace α] {L : α → Vec} {s : α → ι → Vec}
    (hL : Measurable L) (hs : Measurable s) : Measurable fun x => place (L x) (s x) := by
  refine measurable_pi_lambda _ fun i => measurable_pi_lambda _ fun a => ?_
  exact ((measurable_pi_apply a).comp hL).mul
    ((measurable_pi_apply a).comp ((measurable_pi_apply i).comp hs))

omit [Fintype ι] in
theorem speed_measurable {α : Type} [MeasurableSpace α] {L : α → Vec} {s : α → ι → Vec}
    (hL : Measurable L) (hs : Measurable s) : Measurable fun x => speed (L x) (s x) := by
  refine measurable_pi_lambda _ fun i => measurable_pi_lambda _ fun a => ?_
  exact ((measurable_pi_apply a).comp ((measurable_pi_apply i).comp hs)).div
    ((measurable_pi_apply a).comp hL)

theorem kin_measurable {α : Type} [MeasurableSpace α] (m : ι → ℝ) {L : α → Vec} {v : α → ι → Vec}
    (hL : Measurable L) (hv : Measurable v) : Measurable fun x => kin m (L x) (v x) := by
  refine measurable_pi_lambda _ fun a => ?_
  unfold kin
  refine Measurable.div (Finset.measurable_sum _ fun i _ => ?_) (vol_measurable.comp hL)
  exact (((measurable_pi_apply a).comp ((measurable_pi_apply i).comp hv)).pow_const 2).const_mul _

theorem G_measurable (h : Meas F S) {α : Type} [MeasurableSpace α] {L : α → Vec} {p v : α → ι → Vec}
    (hL : Measurable L) (hp : Measurable p) (hv : Measurable v) :
    Measurable fun x => (dyn mode W extP m F S).G (L x) (p x) (v x) := by
  refine force_measurable mode hL (measurable_pi_lambda _ fun a => ?_)
  have h1 : Measurable fun x => S (L x) (p x) := h.S.comp (hL.prodMk hp)
  exact (((measurable_pi_apply a).comp h1).add
    ((measurable_pi_apply a).comp (kin_measurable m hL hv))).sub_const _

theorem push_preserving (h : Meas F S) (t : ℝ) :
    MeasurePreserving ((dyn mode W extP m F S).push t) (mode.phase C) (mode.phase C) := by
  unfold Mode.phase
  set y := dyn mode W extP m F S with hy
  have hlen : Measurable y.len := len_measurable mode
  refine skew_fst (g := fun (b : (ι → Vec) × (ι → Vec)) (c : Vec × Vec) => (c.1, fun a => c.2 a +
    t * y.G (y.len c.1) (place (y.len c.1) b.1) (speed (y.len c.1) b.2) a)) ?_ fun b => ?_
  · refine Measurable.prodMk (measurable_fst.comp measurable_snd) ?_
    refine measurable_pi_lambda _ fun a => ?_
    have hL : Measurable fun z : ((ι → Vec) × (ι → Vec)) × (Vec × Vec) => y.len z.2.1 :=
      hlen.comp (measurable_fst.comp measurable_snd)
    have hG := G_measurable (mode := mode) (W := W) (extP := extP) (m := m) h hL
      (place_measurable hL (measurable_fst.comp measurable_fst))
      (speed_measurable hL (measurable_snd.comp measurable_fst))
    exact ((measurable_pi_apply a).comp (measurable_snd.comp measurable_snd)).add
      (((measurable_pi_apply a).comp hG).const_mul t)
  · refine skew_snd (g := fun (q e : Vec) => fun a => e a +
      t * y.G (y.len q) (place (y.len q) b.1) (speed (y.len q) b.2) a) ?_ fun q => ?_
    · refine measurable_pi_lambda _ fun a => ?_
      have hL : Measurable fun z : Vec × Vec => y.len z.1 := hlen.comp measurable_fst
      have hG := G_measurable (mode := mode) (W := W) (extP := extP) (m := m) h hL
        (place_measurable hL (measurable_const (a := b.1)))
        (speed_measurable hL (measurable_const (a := b.2)))
      exact ((measurable_pi_apply a).comp measurable_snd).add
        (((measurable_pi_apply a).comp hG).const_mul t)
    · refine translate_preserving mode fun a ha => ?_
      have : y.G (y.len q) (place (y.len q) b.1) (speed (y.len q) b.2) a = 0 :=
        force_unused mode _ _ a ha
      rw [this, mul_zero]

theorem kick_preserving (h : Meas F S) (t : ℝ) :
    MeasurePreserving ((dyn mode W extP m F S).kick t) (mode.phase C) (mode.phase C) := by
  unfold Mode.phase
  set y := dyn mode W extP m F S with hy
  have hlen : Measurable y.len := len_measurable mode
  have hk : ∀ {α : Type} [MeasurableSpace α] {L : α → Vec} {s u : α → ι → Vec}, Measurable L →
      Measurable s → Measurable u → Measurable fun x => (fun i a => u x i a +
        t / y.m i * (L x a * y.F (L x) (place (L x) (s x)) i a) : ι → Vec) := by
    intro α _ L s u hL hs hu
    have hF : Measurable fun x => F (L x) (place (L x) (s x)) :=
      h.F.comp (hL.prodMk (place_measurable hL hs))
    refine measurable_pi_lambda _ fun i => measurable_pi_lambda _ fun a => ?_
    exact ((measurable_pi_apply a).comp ((measurable_pi_apply i).comp hu)).add
      ((((measurable_pi_apply a).comp hL).mul
        ((measurable_pi_apply a).comp ((measurable_pi_apply i).comp hF))).const_mul _)
  refine skew_snd (g := fun (c : Vec × Vec) (b : (ι → Vec) × (ι → Vec)) => (b.1, fun i a => b.2 i a +
    t / y.m i * (y.len c.1 a * y.F (y.len c.1) (place (y.len c.1) b.1) i a))) ?_ fun c => ?_
  · exact Measurable.prodMk (measurable_fst.comp measurable_snd)
      (hk (hlen.comp (measurable_fst.comp measurable_fst)) (measurable_fst.comp measurable_snd)
        (measurable_snd.comp measurable_snd))
  · refine skew_snd (g := fun (s u : ι → Vec) => fun i a => u i a +
      t / y.m i * (y.len c.1 a * y.F (y.len c.1) (place (y.len c.1) s) i a)) ?_ fun s => ?_
    · exact hk (measurable_const (a := y.len c.1)) measurable_fst measurable_snd
    · exact measurePreserving_add_right volume _

theorem grow_preserving (t : ℝ) :
    MeasurePreserving ((dyn mode W extP m F S).grow t) (mode.phase C) (mode.phase C) := by
  unfold Mode.phase
  set y := dyn mode W extP m F S with hy
  refine skew_fst (g := fun (_ : (ι → Vec) × (ι → Vec)) (c : Vec × Vec) =>
    ((fun a => c.1 a + t * (y.c a * c.2 a) : Vec), c.2)) ?_ fun b => ?_
  · refine Measurable.prodMk (measurable_pi_lambda _ fun a => ?_) (measurable_snd.comp measurable_snd)
    exact ((measurable_pi_apply a).comp (measurable_fst.comp measurable_snd)).add
      ((((measurable_pi_apply a).comp (measurable_snd.comp measurable_snd)).const_mul _).const_mul _)
  · refine skew_fst (g := fun (e q : Vec) => fun a => q a + t * (y.c a * e a)) ?_ fun e => ?_
    · refine measurable_pi_lambda _ fun a => ?_
      exact ((measurable_pi_apply a).comp measurable_snd).add
        ((((measurable_pi_apply a).comp measurable_fst).const_mul _).const_mul _)
    · refine translate_preserving mode fun a ha => ?_
      have : y.c a = 0 := c_unused mode W a ha
      rw [this, zero_mul, mul_zero]

theorem moveIn_preserving (hR : Reduction Λ C red) [Countable Λ] (hC : MeasurableSet C) (t : ℝ) :
    MeasurePreserving ((dyn mode W extP m F S).moveIn red t) (mode.phase C) (mode.phase C) := by
  unfold Mode.phase
  set y := dyn mode W extP m F S with hy
  have hlen : Measurable y.len := len_measurable mode
  have hk : ∀ {α : Type} [MeasurableSpace α] {L : α → Vec} {s u : α → ι → Vec}, Measurable L →
      Measurable s → Measurable u → Measurable fun x => red (fun i a => s x i a +
        t * (u x i a / (L x a * L x a)) : ι → Vec) := by
    intro α _ L s u hL hs hu
    refine (hR.measurable hC).comp ?_
    refine measurable_pi_lambda _ fun i => measurable_pi_lambda _ fun a => ?_
    have hLa := (measurable_pi_apply a).comp hL
    exact ((measurable_pi_apply a).comp ((measurable_pi_apply i).comp hs)).add
      ((((measurable_pi_apply a).comp ((measurable_pi_apply i).comp hu)).div
        (hLa.mul hLa)).const_mul _)
  refine skew_snd (g := fun (c : Vec × Vec) (b : (ι → Vec) × (ι → Vec)) =>
    (red fun i a => b.1 i a + t * (b.2 i a / (y.len c.1 a * y.len c.1 a)), b.2)) ?_ fun c => ?_
  · exact Measurable.prodMk (hk (hlen.comp (measurable_fst.comp measurable_fst))
      (measurable_fst.comp measurable_snd) (measurable_snd.comp measurable_snd))
      (measurable_snd.comp measurable_snd)
  · refine skew_fst (g := fun (u s : ι → Vec) =>
      red fun i a => s i a + t * (u i a / (y.len c.1 a * y.len c.1 a))) ?_ fun u => ?_
    · exact hk (measurable_const (a := y.len c.1)) measurable_snd measurable_fst
    · refine ⟨hk (measurable_const (a := y.len c.1)) measurable_id (measurable_const (a := u)), ?_⟩
      exact hR.map_translate hC fun i a => t * (u i a / (y.len c.1 a * y.len c.1 a))

/-- **The algorithm preserves volume.** -/
theorem stepIn_preserving (h : Meas F S) (hR : Reduction Λ C red) [Countable Λ]
    (hC : MeasurableSet C) (dt : ℝ) :
    MeasurePreserving ((dyn mode W extP m F S).stepIn red dt) (mode.phase C) (mode.phase C) := by
  unfold Dyn.stepIn Dyn.half
  exact (push_preserving h _).comp ((kick_preserving h _).comp ((grow_preserving _).comp
    ((moveIn_preserving hR hC _).comp ((grow_preserving _).comp ((kick_preserving h _).comp
      (push_preserving h _))))))

end Phase

end Verif.Nph
