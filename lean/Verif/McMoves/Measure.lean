/-
Integrals over the primary cell: displacements followed by wrapping leave them
unchanged; probability of acceptance.
-/
import Verif.McMoves.Accept
import Mathlib.MeasureTheory.Group.FundamentalDomain
import Mathlib.MeasureTheory.Group.LIntegral
import Mathlib.MeasureTheory.Measure.Lebesgue.Basic
import Mathlib.MeasureTheory.Measure.Haar.Unique

set_option autoImplicit false

namespace Verif.McMoves

open Verif.Boundary MeasureTheory
open scoped ENNReal Pointwise

/-! ### Acceptance -/

/-- Probability that a uniform deviate in [0,1) satisfies a condition. -/
noncomputable def prob (P : ℝ → Prop) : ℝ≥0∞ := volume {v : ℝ | 0 ≤ v ∧ v < 1 ∧ P v}

theorem metropolis_iff (ρ v : ℝ) : metropolis ρ v = true ↔ ρ > 1 ∨ v < ρ := by
  unfold metropolis; simp

/-- The rule accepts with probability `min(1, ρ)`. -/
theorem prob_metropolis {ρ : ℝ} (hρ : 0 ≤ ρ) :
    prob (fun v => metropolis ρ v = true) = ENNReal.ofReal (min 1 ρ) := by
  unfold prob
  have : {v : ℝ | 0 ≤ v ∧ v < 1 ∧ metropolis ρ v = true} = Set.Ico 0 (min 1 ρ) := by
    ext v
    simp only [Set.mem_setOf_eq, Set.mem_Ico, metropolis_iff, lt_min_iff]
    constructor
    · rintro ⟨h0, h1, h2 | h2⟩
      · exact ⟨h0, h1, by linarith⟩
      · exact ⟨h0, h1, h2⟩
    · rintro ⟨h0, h1, h2⟩
      exact ⟨h0, h1, Or.inr h2⟩
  rw [this, Real.volume_Ico, sub_zero]

theorem prob_false : prob (fun _ => False) = 0 := by
  unfold prob
  simp

theorem prob_congr {P Q : ℝ → Prop} (h : ∀ v, 0 ≤ v → v < 1 → (P v ↔ Q v)) : prob P = prob Q := by
  unfold prob
  congr 1
  ext v
  simp only [Set.mem_setOf_eq]
  constructor
  · rintro ⟨h0, h1, h2⟩; exact ⟨h0, h1, (h v h0 h1).1 h2⟩
  · rintro ⟨h0, h1, h2⟩; exact ⟨h0, h1, (h v h0 h1).2 h2⟩

/-- The weight of a state times the probability of acceptance is symmetric. -/
theorem balance_min {x y : ℝ} (hx : 0 < x) (hy : 0 < y) :
    ENNReal.ofReal x * ENNReal.ofReal (min 1 (y / x)) =
      ENNReal.ofReal y * ENNReal.ofReal (min 1 (x / y)) := by
  rw [← ENNReal.ofReal_mul hx.le, ← ENNReal.ofReal_mul hy.le, mul_min_of_nonneg _ _ hx.le,
    mul_min_of_nonneg _ _ hy.le, mul_one, mul_one, mul_div_cancel₀ _ hx.ne',
    mul_div_cancel₀ _ hy.ne', min_comm]

/-! ### Translation and reduction to a fundamental domain -/

/-- `red` reduces every point to the domain `C` by a vector of the lattice `L`,
and the domain contains at most one point of every class. -/
structure Reduction {E : Type} [AddCommGroup E] (L : AddSubgroup E) (C : Set E) (red : E → E) :
    Prop where
  mem : ∀ x, red x ∈ C
  class_ : ∀ x, red x - x ∈ L
  unique : ∀ x ∈ C, ∀ y ∈ C, x - y ∈ L → x = y

variable {E : Type} [AddCommGroup E] [MeasurableSpace E] [MeasurableAdd₂ E] [MeasurableNeg E]
  {μ : Measure E} [μ.IsAddLeftInvariant]
  {L : AddSubgroup E} {C : Set E} {red : E → E}

theorem Reduction.add (h : Reduction L C red) {l : E} (hl : l ∈ L) (x : E) : red (l + x) = red x := by
  refine h.unique _ (h.mem _) _ (h.mem _) ?_
  have e : red (l + x) - red x = (red (l + x) - (l + x)) + l - (red x - x) := by abel
  rw [e]
  exact L.sub_mem (L.add_mem (h.class_ _) hl) (h.class_ _)

theorem Reduction.self (h : Reduction L C red) {x : E} (hx : x ∈ C) : red x = x :=
  h.unique _ (h.mem _) _ hx (h.class_ x)

theorem Reduction.eq (h : Reduction L C red) {x y : E} (hy : y ∈ C) (hxy : y - x ∈ L) : red x = y := by
  refine h.unique _ (h.mem _) _ hy ?_
  have e : red x - y = (red x - x) - (y - x) := by abel
  rw [e]
  exact L.sub_mem (h.class_ x) hxy

theorem Reduction.domain (h : Reduction L C red) (hC : MeasurableSet C) :
    IsAddFundamentalDomain L C μ := by
  refine IsAddFundamentalDomain.mk' hC.nullMeasurableSet fun x => ?_
  refine ⟨⟨red x - x, h.class_ x⟩, ?_, ?_⟩
  · change red x - x + x ∈ C
    rw [sub_add_cancel]
    exact h.mem x
  · rintro ⟨l, hl⟩ hlx
    change l + x ∈ C at hlx
    have := h.eq (x := x) hlx (by rwa [add_sub_cancel_right])
    ext
    simp [this]

/-- **Translations preserve integrals over pairs of reduced points.** -/
theorem Reduction.translate (h : Reduction L C red) [Countable L] (hC : MeasurableSet C)
    (H : E → E → ℝ≥0∞) (u : E) :
    ∫⁻ x in C, H x (red (x + u)) ∂μ = ∫⁻ x in C, H (red (x + -u)) x ∂μ := by
  set G : E → ℝ≥0∞ := fun x => H (red x) (red (x + u)) with hG
  have hd : IsAddFundamentalDomain L C μ := h.domain hC
  have hd' : IsAddFundamentalDomain L ((-u) +ᵥ C) μ := hd.vadd_of_comm (-u)
  have e1 : ∫⁻ x in C, H x (red (x + u)) ∂μ = ∫⁻ x in C, G x ∂μ :=
    setLIntegral_congr_fun hC fun x hx => by simp only [hG, h.self hx]
  have e2 : ∫⁻ x in C, G x ∂μ = ∫⁻ x in (-u) +ᵥ C, G x ∂μ := by
    refine hd.setLIntegral_eq hd' G ?_
    rintro ⟨l, hl⟩ x
    change H (red (l + x)) (red (l + x + u)) = H (red x) (red (x + u))
    rw [h.add hl, add_assoc, h.add hl]
  have hC' : MeasurableSet ((-u) +ᵥ C) := hC.const_vadd (-u)
  rw [e1, e2, ← lintegral_indicator hC', ← lintegral_indicator hC,
    ← lintegral_add_left_eq_self _ (-u)]
  refine lintegral_congr fun x => ?_
  have hiff : (-u + x ∈ (-u) +ᵥ C) ↔ x ∈ C := Set.vadd_mem_vadd_set_iff (a := -u)
  by_cases hx : x ∈ C
  · rw [Set.indicator_of_mem (hiff.2 hx), Set.indicator_of_mem hx]
    simp only [hG]
    rw [add_comm (-u) x, neg_add_cancel_right, h.self hx]
  · rw [Set.indicator_of_notMem (fun h => hx (hiff.1 h)), Set.indicator_of_notMem hx]

/-! ### The primary cell -/

variable {gen : Vec → Vec} {lengths : Vec} {bravais : Fin 3 → Vec}

theorem gen_sub (g : Geo gen lengths bravais) (r q : Vec) : gen (r - q) = gen r - gen q := by
  funext i
  have := g.lin r q 0 i
  have hz : latComb bravais 0 = 0 := by simp [latComb]
  rw [hz, add_zero] at this
  simpa using this

theorem gen_lat (g : Geo gen lengths bravais) (r : Vec) (k : IVec) (i : Fin 3) :
    gen (r + latComb bravais k) i = gen r i + k i := by
  have h0 : gen 0 i = 0 := by
    have := congrFun (gen_sub g 0 0) i
    simpa using this
  have := g.lin r 0 k i
  rw [sub_zero, h0, sub_zero] at this
  exact this

theorem normSq_le (v : Vec) : normSq v ≤ 3 * ‖v‖ ^ 2 := by
  have h : ∀ i, v i ^ 2 ≤ ‖v‖ ^ 2 := fun i => by
    have := norm_le_pi_norm v i
    rw [Real.norm_eq_abs] at this
    rw [← sq_abs]
    exact pow_le_pow_left₀ (abs_nonneg _) this 2
  unfold normSq
  have h0 := h 0
  have h1 := h 1
  have h2 := h 2
  nlinarith

theorem gen_continuous (g : Geo gen lengths bravais) : Continuous gen := by
  refine continuous_pi fun i => ?_
  have hp := g.pos i
  refine (LipschitzWith.of_dist_le_mul (K := ⟨2 / lengths i, by positivity⟩) fun r q => ?_).continuous
  have hb := g.bound (r - q) i
  rw [gen_sub g] at hb
  have hn := normSq_le (r - q)
  rw [dist_eq_norm, dist_eq_norm, Real.norm_eq_abs]
  change |gen r i - gen q i| ≤ 2 / lengths i * ‖r - q‖
  rw [div_mul_eq_mul_div, le_div_iff₀ hp]
  refine (sq_le_sq₀ (by positivity) (by positivity)).1 ?_
  rw [mul_pow, sq_abs]
  have : (lengths i * (gen r - gen q) i) ^ 2 = (gen r i - gen q i) ^ 2 * lengths i ^ 2 := by
    simp only [Pi.sub_apply]; ring
  nlinarith [sq_nonneg ‖r - q‖]

/-- The primary cell. -/
def cell (gen : Vec → Vec) : Set Vec := {r | InUnit (gen r)}

theorem cell_measurable (g : Geo gen lengths bravais) : MeasurableSet (cell gen) := by
  have : cell gen = gen ⁻¹' (Set.pi Set.univ fun _ => Set.Ico 0 1) := by
    ext r
    simp [cell, InUnit, Set.mem_pi]
  rw [this]
  exact (gen_continuous g).measurable (MeasurableSet.univ_pi fun _ => measurableSet_Ico)

/-- The lattice of periodic images. -/
def lattice (bravais : Fin 3 → Vec) : AddSubgroup Vec :=
  (AddMonoidHom.mk' (latComb bravais) (latComb_add bravais)).range

theorem mem_lattice {v : Vec} : v ∈ lattice bravais ↔ ∃ k, latComb bravais k = v := by
  unfold lattice
  rw [AddMonoidHom.mem_range]
  rfl

instance : Countable (lattice bravais) := by
  unfold lattice
  exact (Set.countable_range (AddMonoidHom.mk' (latComb bravais) (latComb_add bravais))).to_subtype

/-- Reduction of a position to the primary cell. -/
noncomputable def reduce (gen : Vec → Vec) (bravais : Fin 3 → Vec) (r : Vec) : Vec :=
  r + latComb bravais fun i => -⌊gen r i⌋

theorem reduction (g : Geo gen lengths bravais) :
    Reduction (lattice bravais) (cell gen) (reduce gen bravais) where
  mem r := by
    intro i
    unfold reduce
    rw [gen_lat g]
    push_cast
    rw [← sub_eq_add_neg]
    exact ⟨Int.fract_nonneg _, Int.fract_lt_one _⟩
  class_ r := by
    rw [mem_lattice]
    exact ⟨_, by unfold reduce; abel⟩
  unique r hr q hq h := by
    obtain ⟨k, hk⟩ := mem_lattice.1 h
    have e : r = q + latComb bravais k := by rw [hk]; abel
    have hk0 : k = 0 := by
      funext i
      have h1 := hr i
      have h2 := hq i
      rw [e, gen_lat g] at h1
      have h3 : (k i : ℝ) < 1 := by linarith
      have h4 : (-1 : ℝ) < k i := by linarith
      have h5 : k i < 1 := by exact_mod_cast h3
      have h6 : -1 < k i := by exact_mod_cast h4
      simp only [Pi.zero_apply]
      omega
    rw [e, hk0]
    simp [latComb]

/-! ### Several atoms -/

variable {ι : Type} [Fintype ι]

/-- The primary cell for every atom. -/
def cells (ι : Type) (gen : Vec → Vec) : Set (ι → Vec) := Set.pi Set.univ fun _ => cell gen

/-- Lattice vectors for every atom. -/
def lattices (ι : Type) (bravais : Fin 3 → Vec) : AddSubgroup (ι → Vec) :=
  AddSubgroup.pi Set.univ fun _ => lattice bravais

omit [Fintype ι] in
theorem mem_lattices {v : ι → Vec} : v ∈ lattices ι bravais ↔ ∀ i, v i ∈ lattice bravais := by
  unfold lattices
  simp [AddSubgroup.mem_pi]

instance : Countable (lattices ι bravais) := by
  let f : lattices ι bravais → ι → lattice bravais := fun v i => ⟨v.1 i, mem_lattices.1 v.2 i⟩
  refine Function.Injective.countable (f := f) fun v v' h => ?_
  ext i : 2
  exact congrArg Subtype.val (congrFun h i)

omit [Fintype ι] in
theorem reductions (g : Geo gen lengths bravais) :
    Reduction (lattices ι bravais) (cells ι gen) (fun v i => reduce gen bravais (v i)) where
  mem v := fun i _ => (reduction g).mem (v i)
  class_ v := mem_lattices.2 fun i => (reduction g).class_ (v i)
  unique v hv v' hv' h := by
    funext i
    exact (reduction g).unique _ (hv i (Set.mem_univ i)) _ (hv' i (Set.mem_univ i)) (mem_lattices.1 h i)

theorem cells_measurable (g : Geo gen lengths bravais) : MeasurableSet (cells ι gen) :=
  MeasurableSet.univ_pi fun _ => cell_measurable g

/-! ### Displacements -/

/-- Random displacements: each component uniform in [-δ, δ). -/
def displacements (δ : ℝ) : Set Vec := Set.pi Set.univ fun _ => Set.Ico (-δ) δ

/-- The distribution of displacements is symmetric. -/
theorem displacements_neg (δ : ℝ) (f : Vec → ℝ≥0∞) :
    ∫⁻ u in displacements δ, f (-u) = ∫⁻ u in displacements δ, f u := by
  have h : displacements δ =ᵐ[volume] Set.Icc (fun _ => -δ) fun _ => δ :=
    Measure.univ_pi_Ico_ae_eq_Icc
  have hm : MeasurableSet (Set.Icc (fun _ => -δ) (fun _ => δ) : Set Vec) := measurableSet_Icc
  rw [setLIntegral_congr h, setLIntegral_congr h, ← lintegral_indicator hm, ← lintegral_indicator hm,
    ← lintegral_neg_eq_self]
  refine lintegral_congr fun u => ?_
  have hiff : (-u ∈ (Set.Icc (fun _ => -δ) (fun _ => δ) : Set Vec)) ↔
      u ∈ (Set.Icc (fun _ => -δ) (fun _ => δ) : Set Vec) := by
    simp only [Set.mem_Icc, Pi.le_def, Pi.neg_apply]
    constructor
    · rintro ⟨h1, h2⟩; exact ⟨fun i => by linarith [h2 i], fun i => by linarith [h1 i]⟩
    · rintro ⟨h1, h2⟩; exact ⟨fun i => by linarith [h2 i], fun i => by linarith [h1 i]⟩
  by_cases hu : u ∈ (Set.Icc (fun _ => -δ) (fun _ => δ) : Set Vec)
  · rw [Set.indicator_of_mem (hiff.2 hu), Set.indicator_of_mem hu, neg_neg]
  · rw [Set.indicator_of_notMem (fun h => hu (hiff.1 h)), Set.indicator_of_notMem hu]

end Verif.McMoves
