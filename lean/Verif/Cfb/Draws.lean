/-
Expectations over the random numbers of the move.
-/
import Verif.Cfb.Run

set_option autoImplicit false

namespace Verif.Cfb

open Verif.Boundary Verif.McCellList Verif.McCell Verif.McMoves MeasureTheory
open Verif.Cpp
open Verif.Cpp.Out
open scoped ENNReal

variable {w : World} {lengths : Vec} {bravais : Fin 3 → Vec} {cutoff : ℝ}

/-! ### Directions of the trials of the old chain -/

/-- Expectation over `m` directions for each of `n` atoms. -/
noncomputable def expDel (σ : Measure Vec) (m : ℕ) : ℕ → (List (List Vec) → ℝ≥0∞) → ℝ≥0∞
  | 0, F => F []
  | n + 1, F => ∫⁻ us : Fin m → Vec, expDel σ m n (fun l => F (List.ofFn us :: l))
      ∂(Measure.pi fun _ => σ)

/-- Expectation over the length of the bond, `k` directions and the deviate that chooses among
the trials, for atoms whose bonds have lengths with the laws `ρs`. -/
noncomputable def expGrow (σ : Measure Vec) (k : ℕ) :
    List (Measure ℝ) → (List (ℝ × List Vec × ℝ) → ℝ≥0∞) → ℝ≥0∞
  | [], F => F []
  | ρ :: ρs, F => ∫⁻ ℓ, ∫⁻ us : Fin k → Vec, (∫⁻ roll in Set.Ico (0 : ℝ) 1,
      expGrow σ k ρs (fun l => F ((ℓ, List.ofFn us, roll) :: l))) ∂(Measure.pi fun _ => σ) ∂ρ

theorem pi_unit {σ : Measure Vec} [SigmaFinite σ] (hσ : ∀ᵐ u ∂σ, normSq u = 1) (m : ℕ) :
    ∀ᵐ us : Fin m → Vec ∂(Measure.pi fun _ => σ), ∀ u ∈ List.ofFn us, normSq u = 1 := by
  have : ∀ᵐ us : Fin m → Vec ∂(Measure.pi fun _ => σ), ∀ i, normSq (us i) = 1 := by
    rw [ae_all_iff]
    intro i
    exact (Measure.tendsto_eval_ae_ae (μ := fun _ : Fin m => σ) (i := i)).eventually hσ
  filter_upwards [this] with us h u hu
  obtain ⟨i, rfl⟩ := (List.mem_ofFn' _ _).1 hu
  exact h i

theorem expDel_congr {σ : Measure Vec} [SigmaFinite σ] (hσ : ∀ᵐ u ∂σ, normSq u = 1) {m : ℕ} :
    ∀ {n : ℕ} {F G : List (List Vec) → ℝ≥0∞},
    (∀ l : List (List Vec), l.length = n → (∀ us ∈ l, ∀ u ∈ us, normSq u = 1) → F l = G l) →
    expDel σ m n F = expDel σ m n G := by
  intro n
  induction n with
  | zero => intro F G h; exact h [] rfl (by simp)
  | succ n ih =>
    intro F G h
    refine lintegral_congr_ae ?_
    filter_upwards [pi_unit hσ m] with us hus
    refine ih fun l hl hl' => h _ (by simp [hl]) ?_
    intro vs hvs
    rcases List.mem_cons.1 hvs with rfl | hvs
    · exact hus
    · exact hl' vs hvs

theorem expGrow_congr {σ : Measure Vec} [SigmaFinite σ] (hσ : ∀ᵐ u ∂σ, normSq u = 1) {k : ℕ} {R : ℝ} :
    ∀ {ρs : List (Measure ℝ)} {F G : List (ℝ × List Vec × ℝ) → ℝ≥0∞},
    (∀ ρ ∈ ρs, ∀ᵐ ℓ ∂ρ, 0 < ℓ ∧ ℓ < R) →
    (∀ l : List (ℝ × List Vec × ℝ), l.length = ρs.length → (∀ g ∈ l, Draw R k g) → F l = G l) →
    expGrow σ k ρs F = expGrow σ k ρs G := by
  intro ρs
  induction ρs with
  | nil => intro F G _ h; exact h [] rfl (by simp)
  | cons ρ ρs ih =>
    intro F G hρ h
    refine lintegral_congr_ae ?_
    filter_upwards [hρ ρ List.mem_cons_self] with ℓ hℓ
    refine lintegral_congr_ae ?_
    filter_upwards [pi_unit hσ k] with us hus
    refine setLIntegral_congr_fun measurableSet_Ico fun roll hroll => ?_
    refine ih (fun x hx => hρ x (List.mem_cons_of_mem _ hx)) fun l hl hl' => h _ (by simp [hl]) ?_
    intro g hg
    rcases List.mem_cons.1 hg with rfl | hg
    · exact ⟨hℓ.1, hℓ.2, by simp, hus, hroll.1, hroll.2⟩
    · exact hl' g hg

/-! ### The steps of the move -/

/-- The growth of atom `i` as a step; `κ` is the factor of the density of the bond. -/
noncomputable def stepOf (w : World) (c : Chain) (t : ℕ → ℕ) (sign : ℤ) (R : ℝ) (law : ℕ → Measure ℝ)
    (κ : ℕ → ℝ≥0∞) (i : ℤ) : Step where
  a := c.atom i
  b := c.atom (i - sign)
  φ := φOf w c t sign i
  ψ q := κ (c.bondType (bondId sign i)) *
    (by classical exact if w.dsq (q (c.atom i)) (q (c.atom (i - sign))) < R ^ 2 then
      ENNReal.ofReal (Real.exp (-w.beta *
        c.bondE (w.dsq (q (c.atom i)) (q (c.atom (i - sign)))) (c.bondType (bondId sign i)))) else 0)
  len := lenOf w c sign i
  ρ := (law (c.bondType (bondId sign i))).restrict (Set.Iio R)

section

variable {c : Chain} {t : ℕ → ℕ} {sign : ℤ} {R : ℝ} {law : ℕ → Measure ℝ} {κ : ℕ → ℝ≥0∞}

theorem factors_ofFn {k : ℕ} (i : ℤ) (p : Conf) (ℓ : ℝ) (us : Fin k → Vec) :
    factors w bravais c t sign i p ℓ (List.ofFn us) = List.ofFn fun j =>
      φOf w c t sign i (Function.update p (c.atom i) (trialPos w bravais c sign i p ℓ (us j))) := by
  unfold factors
  rw [List.map_ofFn]
  rfl

theorem delWt_ofFn {m : ℕ} (p : Conf) (i : ℤ) (us : Fin m → Vec) :
    delWt w bravais c t sign p i (List.ofFn us) =
      wt (reduce w.gen bravais) m (stepOf w c t sign R law κ i) p us := by
  unfold delWt wt
  rw [factors_ofFn, List.sum_ofFn]
  rfl

theorem expDel_delW (σ : Measure Vec) (m : ℕ) (p : Conf) : ∀ (l : List ℤ) (H : ℝ → ℝ≥0∞),
    expDel σ m l.length (fun dels => H (delW w bravais c t sign p l dels)) =
      avgP (Measure.pi fun _ : Fin m => σ)
        (weights (reduce w.gen bravais) m (l.map (stepOf w c t sign R law κ)) p) H := by
  intro l
  induction l with
  | nil => intro H; simp [expDel, delW, weights, avgP]
  | cons i l ih =>
    intro H
    refine lintegral_congr fun us => ?_
    have := ih fun W => H (wt (reduce w.gen bravais) m (stepOf w c t sign R law κ i) p us * W)
    unfold weights at this
    rw [← this, ← delWt_ofFn]
    simp [delW]

/-- Choice among finitely many trials. -/
theorem lintegral_pick_ofFn {k : ℕ} {g : Fin k → ℝ} (hg : ∀ j, 0 ≤ g j) (f : ℕ → ℝ≥0∞) :
    ∫⁻ x in Set.Ico 0 (∑ j, g j), f (pick (List.ofFn g) x) = ∑ j, ENNReal.ofReal (g j) * f j := by
  have h := lintegral_pick (List.ofFn g) (by
    intro p hp
    obtain ⟨i, rfl⟩ := (List.mem_ofFn' _ _).1 hp
    exact hg i) f
  rw [List.sum_ofFn] at h
  rw [h]
  refine Fintype.sum_equiv (finCongr (List.length_ofFn)) _ _ fun j => ?_
  simp
  rfl

theorem expGrow_growPure (σ : Measure Vec) (m : ℕ) : ∀ (l : List ℤ) (p : Conf) (H : Conf → ℝ → ℝ≥0∞),
    expGrow σ (m + 1) (l.map fun i => (law (c.bondType (bondId sign i))).restrict (Set.Iio R))
      (fun gs => H (growPure w bravais c t sign l gs p).1 (growPure w bravais c t sign l gs p).2) =
    grow (reduce w.gen bravais) σ m (l.map (stepOf w c t sign R law κ)) p H := by
  intro l
  induction l with
  | nil => intro p H; simp [expGrow, growPure, grow]
  | cons i l ih =>
    intro p H
    simp only [List.map_cons, expGrow, growPure, grow]
    refine lintegral_congr fun ℓ => ?_
    refine lintegral_congr fun us => ?_
    obtain ⟨g, hg⟩ : ∃ g : Fin (m + 1) → ℝ, g = fun j => φOf w c t sign i
      (Function.update p (c.atom i) (trialPos w bravais c sign i p ℓ (us j))) := ⟨_, rfl⟩
    have hfs : factors w bravais c t sign i p ℓ (List.ofFn us) = List.ofFn g := by
      rw [factors_ofFn, hg]
    have hgpos : ∀ j, 0 < g j := fun j => by rw [hg]; exact Real.exp_pos _
    have hS : 0 < ∑ j, g j := Finset.sum_pos (fun j _ => hgpos j) Finset.univ_nonempty
    have hprobs : probs (List.ofFn g) = List.ofFn fun j => g j / ∑ j, g j := by
      unfold probs
      rw [List.map_ofFn, List.sum_ofFn]
      rfl
    have hone : ∑ j, g j / ∑ j, g j = 1 := by
      rw [← Finset.sum_div, div_self hS.ne']
    rw [hfs, hprobs, List.sum_ofFn]
    obtain ⟨f, hf⟩ : ∃ f : ℕ → ℝ≥0∞, f = fun j =>
      grow (reduce w.gen bravais) σ m (l.map (stepOf w c t sign R law κ))
        (Function.update p (c.atom i)
          (trialPos w bravais c sign i p ℓ ((List.ofFn us).getD j 0)))
        (fun q W => H q ((∑ j, g j) * W)) := ⟨_, rfl⟩
    have h1 := lintegral_pick_ofFn (g := fun j => g j / ∑ j, g j)
      (fun j => (div_pos (hgpos j) hS).le) f
    rw [hone] at h1
    refine Eq.trans (lintegral_congr fun roll => ?_) (h1.trans ?_)
    · rw [hf]
      exact ih _ fun q W => H q ((∑ j, g j) * W)
    · refine Finset.sum_congr rfl fun j _ => ?_
      have hget : (List.ofFn us).getD (j : ℕ) 0 = us j := by
        rw [List.getD_eq_getElem?_getD, List.getElem?_eq_getElem
          (by rw [List.length_ofFn]; exact j.2), List.getElem_ofFn]
        rfl
      rw [hf]
      dsimp only
      rw [hget, hg]
      rfl

end

end Verif.Cfb
