/-
Averages over products of Rosenbluth weights, and the identity behind configurational bias:
growing a chain among trial positions yields the Boltzmann distribution divided by the
Rosenbluth weight.
-/
import Verif.Boundary.Model
import Mathlib.MeasureTheory.Constructions.Pi
import Mathlib.MeasureTheory.Integral.Lebesgue.Add
import Mathlib.MeasureTheory.Measure.Prod
import Mathlib.MeasureTheory.Constructions.BorelSpace.Real
import Mathlib.MeasureTheory.Measure.Lebesgue.Basic

set_option autoImplicit false

namespace Verif.Cfb

open Verif.Boundary MeasureTheory
open scoped ENNReal

/-! ### Averages over products of weights -/

section Avg

variable {D : Type} [MeasurableSpace D]

/-- Average of a function of the product of weights that depend on independent draws. -/
noncomputable def avgP (μ : Measure D) : List (D → ℝ) → (ℝ → ℝ≥0∞) → ℝ≥0∞
  | [], H => H 1
  | w :: ws, H => ∫⁻ d, avgP μ ws (fun W => H (w d * W)) ∂μ

variable {μ : Measure D} [SFinite μ]

theorem avgP_measurable' : ∀ (n : ℕ) (Q : Type) [MeasurableSpace Q] (ws : List (Q → D → ℝ))
    (_ : ws.length = n) (_ : ∀ w ∈ ws, Measurable (Function.uncurry w)) (H : Q → ℝ → ℝ≥0∞)
    (_ : Measurable (Function.uncurry H)),
    Measurable fun q => avgP μ (ws.map fun w => w q) (H q) := by
  intro n
  induction n with
  | zero =>
    intro Q _ ws hn _ H hH
    rw [List.length_eq_zero_iff.1 hn]
    exact hH.comp (measurable_id.prodMk measurable_const)
  | succ n ih =>
    intro Q _ ws hn hw H hH
    obtain ⟨w, ws, rfl⟩ := List.exists_cons_of_length_eq_add_one hn
    have hw0 : Measurable (Function.uncurry w) := hw w List.mem_cons_self
    have h1 := ih (Q × D) (ws.map fun v => fun (qd : Q × D) => v qd.1)
      (by simpa using hn) (by
        intro v hv
        obtain ⟨v', hv', rfl⟩ := List.mem_map.1 hv
        have := hw v' (List.mem_cons_of_mem _ hv')
        exact this.comp ((measurable_fst.comp measurable_fst).prodMk measurable_snd))
      (fun qd W => H qd.1 (w qd.1 qd.2 * W)) (by
        refine hH.comp ((measurable_fst.comp measurable_fst).prodMk ?_)
        exact (hw0.comp measurable_fst).mul measurable_snd)
    have h2 : (fun q => avgP μ ((w :: ws).map fun w => w q) (H q)) =
        fun q => ∫⁻ d, avgP μ ((ws.map fun v => fun (qd : Q × D) => v qd.1).map
          fun v => v (q, d)) (fun W => H (q, d).1 (w (q, d).1 (q, d).2 * W)) ∂μ := by
      funext q
      simp only [List.map_cons, avgP, List.map_map]
      rfl
    rw [h2]
    exact h1.lintegral_prod_right'

theorem avgP_measurable {Q : Type} [MeasurableSpace Q] {ws : List (Q → D → ℝ)}
    (hw : ∀ w ∈ ws, Measurable (Function.uncurry w)) {H : Q → ℝ → ℝ≥0∞}
    (hH : Measurable (Function.uncurry H)) :
    Measurable fun q => avgP μ (ws.map fun w => w q) (H q) :=
  avgP_measurable' _ Q ws rfl hw H hH

/-- The same with weights that do not depend on the parameter. -/
theorem avgP_measurable_const {Q : Type} [MeasurableSpace Q] {ws : List (D → ℝ)}
    (hw : ∀ w ∈ ws, Measurable w) {H : Q → ℝ → ℝ≥0∞} (hH : Measurable (Function.uncurry H)) :
    Measurable fun q => avgP μ ws (H q) := by
  have := avgP_measurable (μ := μ) (ws := ws.map fun w => fun (_ : Q) d => w d) (by
    intro w hw'
    obtain ⟨v, hv, rfl⟩ := List.mem_map.1 hw'
    exact (hw v hv).comp measurable_snd) hH
  simpa only [List.map_map, Function.comp_def, List.map_id'] using this

/-- Exchange of an integral and an average. -/
theorem avgP_swap {Z : Type} [MeasurableSpace Z] {κ : Measure Z} [SFinite κ] {ws : List (D → ℝ)}
    (hw : ∀ w ∈ ws, Measurable w) {H : Z → ℝ → ℝ≥0∞} (hH : Measurable (Function.uncurry H)) :
    ∫⁻ z, avgP μ ws (H z) ∂κ = avgP μ ws fun W => ∫⁻ z, H z W ∂κ := by
  induction ws generalizing H with
  | nil => rfl
  | cons w ws ih =>
    have hw0 : Measurable w := hw w List.mem_cons_self
    have hws : ∀ v ∈ ws, Measurable v := fun v hv => hw v (List.mem_cons_of_mem _ hv)
    have hm : Measurable (Function.uncurry fun (zd : Z × D) (W : ℝ) => H zd.1 (w zd.2 * W)) :=
      hH.comp ((measurable_fst.comp measurable_fst).prodMk
        ((hw0.comp (measurable_snd.comp measurable_fst)).mul measurable_snd))
    unfold avgP
    rw [lintegral_lintegral_swap]
    · refine lintegral_congr fun d => ?_
      exact ih hws (H := fun z W => H z (w d * W))
        (hH.comp (measurable_fst.prodMk (measurable_const.mul measurable_snd)))
    · exact (avgP_measurable_const hws hm).aemeasurable

/-- The order of the draws does not matter. -/
theorem avgP_perm {ws ws' : List (D → ℝ)} (hp : ws.Perm ws') (hw : ∀ w ∈ ws, Measurable w)
    {H : ℝ → ℝ≥0∞} (hH : Measurable H) : avgP μ ws H = avgP μ ws' H := by
  induction hp generalizing H with
  | nil => rfl
  | cons w _ ih =>
    unfold avgP
    refine lintegral_congr fun d => ih (fun v hv => hw v (List.mem_cons_of_mem _ hv)) ?_
    exact hH.comp (measurable_const.mul measurable_id)
  | swap v w ws =>
    have hw0 : Measurable w := hw w (by simp)
    have hv0 : Measurable v := hw v (by simp)
    change ∫⁻ d, ∫⁻ e, avgP μ ws (fun W => H (w d * (v e * W))) ∂μ ∂μ
      = ∫⁻ e, ∫⁻ d, avgP μ ws (fun W => H (v e * (w d * W))) ∂μ ∂μ
    have hm : Measurable fun de : D × D => avgP μ ws fun W => H (w de.1 * (v de.2 * W)) := by
      refine avgP_measurable_const (H := fun (de : D × D) W => H (w de.1 * (v de.2 * W)))
        (fun u hu => hw u (List.mem_cons_of_mem _ (List.mem_cons_of_mem _ hu))) ?_
      exact hH.comp ((hw0.comp (measurable_fst.comp measurable_fst)).mul
        ((hv0.comp (measurable_snd.comp measurable_fst)).mul measurable_snd))
    rw [lintegral_lintegral_swap hm.aemeasurable]
    refine lintegral_congr fun e => lintegral_congr fun d => ?_
    congr 1
    funext W
    rw [mul_left_comm]
  | trans h1 _ ih1 ih2 =>
    rw [ih1 hw hH, ih2 (fun w hw' => hw w (h1.mem_iff.2 hw')) hH]

theorem avgP_avgP {D' : Type} [MeasurableSpace D'] {μ' : Measure D'} [SFinite μ']
    {ws : List (D → ℝ)} {ws' : List (D' → ℝ)} (hw : ∀ w ∈ ws, Measurable w)
    (hw' : ∀ w ∈ ws', Measurable w) {κ : ℝ → ℝ → ℝ≥0∞} (hκ : Measurable (Function.uncurry κ)) :
    avgP μ ws (fun W => avgP μ' ws' (κ W)) = avgP μ' ws' fun W' => avgP μ ws fun W => κ W W' := by
  induction ws generalizing κ with
  | nil => rfl
  | cons w ws ih =>
    have hw0 : Measurable w := hw w List.mem_cons_self
    have hws : ∀ v ∈ ws, Measurable v := fun v hv => hw v (List.mem_cons_of_mem _ hv)
    change ∫⁻ d, avgP μ ws (fun W => avgP μ' ws' (κ (w d * W))) ∂μ =
      avgP μ' ws' fun W' => ∫⁻ d, avgP μ ws (fun W => κ (w d * W) W') ∂μ
    have h1 : ∀ d, avgP μ ws (fun W => avgP μ' ws' (κ (w d * W))) =
        avgP μ' ws' fun W' => avgP μ ws fun W => κ (w d * W) W' := fun d =>
      ih hws (κ := fun W W' => κ (w d * W) W')
        (hκ.comp ((measurable_const.mul measurable_fst).prodMk measurable_snd))
    simp only [h1]
    refine avgP_swap hw' (H := fun d W' => avgP μ ws fun W => κ (w d * W) W') ?_
    refine avgP_measurable_const (Q := D × ℝ) (H := fun y W => κ (w y.1 * W) y.2) hws ?_
    exact hκ.comp (((hw0.comp (measurable_fst.comp measurable_fst)).mul measurable_snd).prodMk
      (measurable_snd.comp measurable_fst))

omit [SFinite μ] in
/-- Only positive products matter. -/
theorem avgP_congr {ws : List (D → ℝ)} (hw : ∀ w ∈ ws, ∀ d, 0 < w d) {H H' : ℝ → ℝ≥0∞}
    (h : ∀ W, 0 < W → H W = H' W) : avgP μ ws H = avgP μ ws H' := by
  induction ws generalizing H H' with
  | nil => exact h 1 one_pos
  | cons w ws ih =>
    unfold avgP
    exact lintegral_congr fun d => ih (fun v hv => hw v (List.mem_cons_of_mem _ hv))
      fun W hW => h _ (mul_pos (hw w List.mem_cons_self d) hW)

theorem avgP_const_mul (c : ℝ≥0∞) (ws : List (D → ℝ)) (hw : ∀ w ∈ ws, Measurable w)
    {H : ℝ → ℝ≥0∞} (hH : Measurable H) :
    avgP μ ws (fun W => c * H W) = c * avgP μ ws H := by
  induction ws generalizing H with
  | nil => rfl
  | cons w ws ih =>
    have hws : ∀ v ∈ ws, Measurable v := fun v hv => hw v (List.mem_cons_of_mem _ hv)
    have hw0 : Measurable w := hw w List.mem_cons_self
    unfold avgP
    rw [← lintegral_const_mul]
    · refine lintegral_congr fun d => ih hws ?_
      exact hH.comp (measurable_const.mul measurable_id)
    · refine avgP_measurable_const (H := fun d W => H (w d * W)) hws ?_
      exact hH.comp ((hw0.comp measurable_fst).mul measurable_snd)

end Avg

/-! ### Integrals over the positions of some atoms -/

/-- Positions of all atoms. -/
abbrev Conf : Type := ℕ → Vec

/-- Integral over positions in `C` of the listed atoms, those of the others being given. -/
noncomputable def sweep (C : Set Vec) : List ℕ → (Conf → ℝ≥0∞) → Conf → ℝ≥0∞
  | [], G, p => G p
  | a :: l, G, p => ∫⁻ x in C, sweep C l G (Function.update p a x)

/-- Two configurations differ at most at the listed atoms. -/
def Off (l : List ℕ) (p q : Conf) : Prop := ∀ b, b ∉ l → q b = p b

theorem update_measurable (a : ℕ) :
    Measurable fun px : Conf × Vec => Function.update px.1 a px.2 := by
  refine measurable_pi_iff.2 fun b => ?_
  by_cases h : b = a
  · subst h
    simp only [Function.update_self]
    exact measurable_snd
  · simp only [Function.update_of_ne h]
    exact (measurable_pi_apply b).comp measurable_fst

section Sweep

variable {C : Set Vec}

theorem sweep_measurable : ∀ (l : List ℕ) {Z : Type} [MeasurableSpace Z] {G : Z → Conf → ℝ≥0∞},
    Measurable (Function.uncurry G) → Measurable fun zp : Z × Conf => sweep C l (G zp.1) zp.2 := by
  intro l
  induction l with
  | nil => intro Z _ G hG; exact hG
  | cons a l ih =>
    intro Z _ G hG
    have h := ih hG
    have h2 : Measurable fun zpx : (Z × Conf) × Vec =>
        sweep C l (G zpx.1.1) (Function.update zpx.1.2 a zpx.2) :=
      h.comp ((measurable_fst.comp measurable_fst).prodMk
        ((update_measurable a).comp ((measurable_snd.comp measurable_fst).prodMk measurable_snd)))
    exact h2.lintegral_prod_right'

theorem sweep_congr {l : List ℕ} {G H : Conf → ℝ≥0∞} {p : Conf} (hC : MeasurableSet C)
    (h : ∀ q, Off l p q → (∀ a ∈ l, q a ∈ C) → G q = H q) : sweep C l G p = sweep C l H p := by
  induction l generalizing p with
  | nil => exact h p (fun _ _ => rfl) (by simp)
  | cons a l ih =>
    unfold sweep
    refine setLIntegral_congr_fun hC fun x hx => ih fun q hq hq' => h q ?_ ?_
    · intro b hb
      have := hq b (fun h => hb (List.mem_cons_of_mem _ h))
      rw [this, Function.update_of_ne]
      rintro rfl
      exact hb List.mem_cons_self
    · intro b hb
      by_cases hbl : b ∈ l
      · exact hq' b hbl
      · rcases List.mem_cons.1 hb with rfl | hb
        · rw [hq b hbl, Function.update_self]
          exact hx
        · exact absurd hb hbl

/-- The starting positions of the listed atoms do not matter. -/
theorem sweep_off {l : List ℕ} {G : Conf → ℝ≥0∞} {p q : Conf} (h : Off l p q) :
    sweep C l G q = sweep C l G p := by
  induction l generalizing p q with
  | nil =>
    have : q = p := funext fun b => h b (by simp)
    rw [this]
  | cons a l ih =>
    unfold sweep
    refine lintegral_congr fun x => ih fun b hb => ?_
    by_cases hba : b = a
    · subst hba; simp
    · rw [Function.update_of_ne hba, Function.update_of_ne hba]
      exact h b (by simp [hba, hb])

theorem sweep_const_mul (l : List ℕ) (c : ℝ≥0∞) {G : Conf → ℝ≥0∞} (hG : Measurable G) (p : Conf) :
    sweep C l (fun q => c * G q) p = c * sweep C l G p := by
  induction l generalizing p with
  | nil => rfl
  | cons a l ih =>
    unfold sweep
    rw [← lintegral_const_mul]
    · exact lintegral_congr fun x => ih _
    · have := sweep_measurable (C := C) l (G := fun (_ : Unit) => G) (hG.comp measurable_snd)
      exact this.comp (measurable_const (a := ()) |>.prodMk
        ((update_measurable a).comp (measurable_const.prodMk measurable_id)))

theorem sweep_swap (l : List ℕ) {Z : Type} [MeasurableSpace Z] {κ : Measure Z} [SFinite κ]
    {G : Z → Conf → ℝ≥0∞} (hG : Measurable (Function.uncurry G)) (p : Conf) :
    ∫⁻ z, sweep C l (G z) p ∂κ = sweep C l (fun q => ∫⁻ z, G z q ∂κ) p := by
  induction l generalizing p with
  | nil => rfl
  | cons a l ih =>
    unfold sweep
    rw [lintegral_lintegral_swap]
    · exact lintegral_congr fun x => ih _
    · have := sweep_measurable (C := C) l hG
      exact (this.comp (measurable_fst.prodMk
        ((update_measurable a).comp (measurable_const.prodMk measurable_snd)))).aemeasurable

theorem sweep_sweep (l l' : List ℕ) {G : Conf → Conf → ℝ≥0∞} (hG : Measurable (Function.uncurry G))
    (p p' : Conf) :
    sweep C l (fun q => sweep C l' (G q) p') p = sweep C l' (fun q' => sweep C l (fun q => G q q') p) p' := by
  induction l generalizing p with
  | nil => rfl
  | cons a l ih =>
    change ∫⁻ x in C, sweep C l (fun q => sweep C l' (G q) p') (Function.update p a x) =
      sweep C l' (fun q' => ∫⁻ x in C, sweep C l (fun q => G q q') (Function.update p a x)) p'
    simp only [ih]
    have hm := sweep_measurable (C := C) l (G := fun q' q => G q q') (hG.comp measurable_swap)
    refine sweep_swap l' (G := fun x q' => sweep C l (fun q => G q q') (Function.update p a x)) ?_ p'
    exact hm.comp (measurable_snd.prodMk
      ((update_measurable a).comp (measurable_const.prodMk measurable_fst)))

end Sweep

/-! ### Growing atoms among trial positions -/

/-- One atom to be grown: `a` is bonded to `b`; `φ` is the weight of a position used to choose
among trial positions, `ψ` the weight of the bond, `len` its length and `ρ` the law of its
length. -/
structure Step where
  a : ℕ
  b : ℕ
  φ : Conf → ℝ
  ψ : Conf → ℝ≥0∞
  len : Conf → ℝ
  ρ : Measure ℝ

section Grow

variable {C : Set Vec} {red : Vec → Vec} {σ : Measure Vec} {m : ℕ}

/-- Position of a trial at distance `ℓ` in the direction `u`. -/
def trial (red : Vec → Vec) (s : Step) (p : Conf) (ℓ : ℝ) (u : Vec) : Vec := red (p s.b - ℓ • u)

/-- Rosenbluth weight of an atom: the weight of its position and those of `m` further positions
with the same length of the bond. -/
noncomputable def wt (red : Vec → Vec) (m : ℕ) (s : Step) (q : Conf) (us : Fin m → Vec) : ℝ :=
  s.φ q + ∑ i, s.φ (Function.update q s.a (trial red s q (s.len q) (us i)))

/-- Sum of the weights of trial positions. -/
noncomputable def total (red : Vec → Vec) (s : Step) (p : Conf) (ℓ : ℝ) {k : ℕ}
    (us : Fin k → Vec) : ℝ := ∑ i, s.φ (Function.update p s.a (trial red s p ℓ (us i)))

/-- Expectation of a function of the final configuration and of the product of Rosenbluth
weights, if atoms are grown one after the other: draw a length and `m + 1` directions, and choose
one of the positions with a probability proportional to its weight. -/
noncomputable def grow (red : Vec → Vec) (σ : Measure Vec) (m : ℕ) :
    List Step → Conf → (Conf → ℝ → ℝ≥0∞) → ℝ≥0∞
  | [], p, G => G p 1
  | s :: ss, p, G => ∫⁻ ℓ, ∫⁻ us : Fin (m + 1) → Vec, ∑ j,
      ENNReal.ofReal (s.φ (Function.update p s.a (trial red s p ℓ (us j))) / total red s p ℓ us) *
        grow red σ m ss (Function.update p s.a (trial red s p ℓ (us j)))
          (fun q W => G q (total red s p ℓ us * W)) ∂(Measure.pi fun _ => σ) ∂s.ρ

/-- What is required of a step. -/
structure Step.OK (C : Set Vec) (red : Vec → Vec) (σ : Measure Vec) (s : Step) : Prop where
  φpos : ∀ q, 0 < s.φ q
  φm : Measurable s.φ
  ψm : Measurable s.ψ
  lm : Measurable s.len
  sf : SFinite s.ρ
  ne : s.b ≠ s.a
  /-- a random length and a random direction yield the weight `ψ` -/
  law : ∀ p : Conf, p s.b ∈ C → ∀ F : Vec → ℝ → ℝ≥0∞, Measurable (Function.uncurry F) →
    ∫⁻ ℓ, ∫⁻ u, F (trial red s p ℓ u) ℓ ∂σ ∂s.ρ =
      ∫⁻ x in C, s.ψ (Function.update p s.a x) * F x (s.len (Function.update p s.a x))

/-- The weights of an atom do not depend on atoms that are grown later. -/
def Local (s s' : Step) : Prop :=
  s.a ≠ s'.a ∧ s.b ≠ s'.a ∧ ∀ q x, s.φ (Function.update q s'.a x) = s.φ q ∧
    s.ψ (Function.update q s'.a x) = s.ψ q ∧ s.len (Function.update q s'.a x) = s.len q

/-- Integration over one of several independent directions and over the other ones. -/
theorem pi_choose [SigmaFinite σ] (j : Fin (m + 1)) {K : Vec → (Fin m → Vec) → ℝ≥0∞}
    (hK : Measurable (Function.uncurry K)) :
    ∫⁻ us : Fin (m + 1) → Vec, K (us j) (fun i => us (j.succAbove i)) ∂(Measure.pi fun _ => σ) =
      ∫⁻ u, ∫⁻ us : Fin m → Vec, K u us ∂(Measure.pi fun _ => σ) ∂σ := by
  have hmp := measurePreserving_piFinSuccAbove (fun _ : Fin (m + 1) => σ) j
  have h2 := hmp.lintegral_comp hK
  rw [lintegral_prod _ hK.aemeasurable] at h2
  exact h2

/-- One atom. -/
theorem one_step [SigmaFinite σ] {s : Step} (ok : s.OK C red σ) (hred : Measurable red)
    (hC : MeasurableSet C) {p : Conf} (hp : p s.b ∈ C)
    {H : Vec → ℝ → ℝ≥0∞} (hH : Measurable (Function.uncurry H)) :
    ∫⁻ ℓ, ∫⁻ us : Fin (m + 1) → Vec, ∑ j,
      ENNReal.ofReal (s.φ (Function.update p s.a (trial red s p ℓ (us j))) / total red s p ℓ us) *
        H (trial red s p ℓ (us j)) (total red s p ℓ us) ∂(Measure.pi fun _ => σ) ∂s.ρ =
    ∫⁻ x in C, (m + 1 : ℕ) * s.ψ (Function.update p s.a x) *
      ENNReal.ofReal (s.φ (Function.update p s.a x)) *
      ∫⁻ us : Fin m → Vec, H x (wt red m s (Function.update p s.a x) us) /
        ENNReal.ofReal (wt red m s (Function.update p s.a x) us) ∂(Measure.pi fun _ => σ) := by
  have := ok.sf
  have htr : Measurable fun (lu : ℝ × Vec) => trial red s p lu.1 lu.2 := by
    unfold trial
    exact hred.comp (measurable_const.sub (measurable_fst.smul measurable_snd))
  have hφ : Measurable fun x : Vec => s.φ (Function.update p s.a x) :=
    ok.φm.comp ((update_measurable s.a).comp (measurable_const.prodMk measurable_id))
  -- weight of a chosen position and the other ones
  obtain ⟨T, hT⟩ : ∃ T : Vec → ℝ → (Fin m → Vec) → ℝ, T = fun x ℓ us =>
    s.φ (Function.update p s.a x) + ∑ i, s.φ (Function.update p s.a (trial red s p ℓ (us i))) :=
    ⟨_, rfl⟩
  obtain ⟨R, hR⟩ : ∃ R : Vec → ℝ → (Fin m → Vec) → ℝ≥0∞, R = fun x ℓ us =>
    ENNReal.ofReal (s.φ (Function.update p s.a x) / T x ℓ us) * H x (T x ℓ us) := ⟨_, rfl⟩
  obtain ⟨F, hF⟩ : ∃ F : Vec → ℝ → ℝ≥0∞, F = fun x ℓ => ∫⁻ us : Fin m → Vec, R x ℓ us
      ∂(Measure.pi fun _ => σ) := ⟨_, rfl⟩
  have hTm : Measurable fun y : (Vec × ℝ) × (Fin m → Vec) => T y.1.1 y.1.2 y.2 := by
    rw [hT]
    refine (hφ.comp (measurable_fst.comp measurable_fst)).add
      (Finset.measurable_sum _ fun i _ => ?_)
    exact hφ.comp (htr.comp ((measurable_snd.comp measurable_fst).prodMk
      ((measurable_pi_apply i).comp measurable_snd)))
  have hFm' : Measurable fun y : (Vec × ℝ) × (Fin m → Vec) =>
      R y.1.1 y.1.2 y.2 := by
    rw [hR]
    refine Measurable.mul ?_ ?_
    · exact ENNReal.measurable_ofReal.comp
        ((hφ.comp (measurable_fst.comp measurable_fst)).div hTm)
    · exact hH.comp ((measurable_fst.comp measurable_fst).prodMk hTm)
  have hFm : Measurable (Function.uncurry F) := by
    rw [hF]
    exact hFm'.lintegral_prod_right'
  have key : ∀ ℓ, ∫⁻ us : Fin (m + 1) → Vec, ∑ j,
      ENNReal.ofReal (s.φ (Function.update p s.a (trial red s p ℓ (us j))) / total red s p ℓ us) *
        H (trial red s p ℓ (us j)) (total red s p ℓ us) ∂(Measure.pi fun _ => σ) =
      (m + 1 : ℕ) * ∫⁻ u, F (trial red s p ℓ u) ℓ ∂σ := by
    intro ℓ
    have htℓ : Measurable fun u => trial red s p ℓ u := htr.comp (measurable_const.prodMk measurable_id)
    have htot : Measurable fun us : Fin (m + 1) → Vec => total red s p ℓ us :=
      Finset.measurable_sum _ fun i _ => hφ.comp (htℓ.comp (measurable_pi_apply i))
    rw [lintegral_finsetSum]
    · have : ∀ j : Fin (m + 1), ∫⁻ us : Fin (m + 1) → Vec,
          ENNReal.ofReal (s.φ (Function.update p s.a (trial red s p ℓ (us j))) / total red s p ℓ us) *
            H (trial red s p ℓ (us j)) (total red s p ℓ us) ∂(Measure.pi fun _ => σ) =
          ∫⁻ u, F (trial red s p ℓ u) ℓ ∂σ := by
        intro j
        have hK : Measurable (Function.uncurry fun (u : Vec) (us : Fin m → Vec) =>
            R (trial red s p ℓ u) ℓ us) :=
          hFm'.comp (((htℓ.comp measurable_fst).prodMk measurable_const).prodMk measurable_snd)
        have h2 := pi_choose (σ := σ) j hK
        rw [hF]
        rw [← h2]
        refine lintegral_congr fun us => ?_
        have ht : total red s p ℓ us = T (trial red s p ℓ (us j)) ℓ (fun i => us (j.succAbove i)) := by
          rw [hT]
          simp only [total]
          rw [Fin.sum_univ_succAbove _ j]
        rw [ht, hR]
      simp only [this, Finset.sum_const, Finset.card_univ, Fintype.card_fin, nsmul_eq_mul]
    · intro j _
      refine Measurable.mul ?_ ?_
      · exact ENNReal.measurable_ofReal.comp ((hφ.comp (htℓ.comp (measurable_pi_apply j))).div htot)
      · exact hH.comp ((htℓ.comp (measurable_pi_apply j)).prodMk htot)
  simp only [key]
  have hFt : Measurable fun ℓ => ∫⁻ u, F (trial red s p ℓ u) ℓ ∂σ := by
    have : Measurable fun y : ℝ × Vec => F (trial red s p y.1 y.2) y.1 :=
      hFm.comp (htr.prodMk measurable_fst)
    exact this.lintegral_prod_right'
  rw [lintegral_const_mul _ hFt, ok.law p hp F hFm, ← lintegral_const_mul]
  · refine setLIntegral_congr_fun hC fun x _ => ?_
    simp only [mul_assoc]
    congr 2
    rw [hF]
    have hwt : ∀ us : Fin m → Vec, wt red m s (Function.update p s.a x) us =
        T x (s.len (Function.update p s.a x)) us := by
      intro us
      rw [hT]
      simp only [wt, trial, Function.update_of_ne ok.ne, Function.update_idem]
    rw [← lintegral_const_mul]
    · refine lintegral_congr fun us => ?_
      rw [hwt, hR]
      have hpos : 0 < T x (s.len (Function.update p s.a x)) us :=
        hT ▸ add_pos_of_pos_of_nonneg (ok.φpos _) (Finset.sum_nonneg fun i _ => (ok.φpos _).le)
      change ENNReal.ofReal (_ / T x (s.len (Function.update p s.a x)) us) * H x _ = _
      rw [ENNReal.ofReal_div_of_pos hpos, div_eq_mul_inv, div_eq_mul_inv, mul_assoc]
      congr 1
      rw [mul_comm]
    · simp only [hwt]
      have h1 : Measurable fun us : Fin m → Vec => T x (s.len (Function.update p s.a x)) us :=
        hTm.comp ((measurable_const (a := (x, s.len (Function.update p s.a x)))).prodMk measurable_id)
      exact (hH.comp (measurable_const.prodMk h1)).div (ENNReal.measurable_ofReal.comp h1)
  · have hu : Measurable fun x : Vec => Function.update p s.a x :=
      (update_measurable s.a).comp (measurable_const.prodMk measurable_id)
    exact (ok.ψm.comp hu).mul (hFm.comp (measurable_id.prodMk (ok.lm.comp hu)))

/-! ### The distribution of grown chains -/

/-- A function that does not depend on the listed atoms. -/
theorem off_eq {β : Type} {f : Conf → β} {l : List ℕ}
    (h : ∀ a ∈ l, ∀ q x, f (Function.update q a x) = f q) {p q : Conf} (hq : Off l p q) :
    f q = f p := by
  induction l generalizing q with
  | nil => rw [show q = p from funext fun b => hq b (by simp)]
  | cons a l ih =>
    rw [← h a List.mem_cons_self q (p a)]
    refine ih (fun b hb => h b (List.mem_cons_of_mem _ hb)) fun b hb => ?_
    by_cases hba : b = a
    · subst hba; simp
    · rw [Function.update_of_ne hba]
      exact hq b (by simp [hba, hb])

/-- Rosenbluth weights of a configuration. -/
noncomputable def weights (red : Vec → Vec) (m : ℕ) (ss : List Step) (q : Conf) :
    List ((Fin m → Vec) → ℝ) := ss.map fun s => wt red m s q

/-- Product of the weights of positions and bonds. -/
noncomputable def product (m : ℕ) (ss : List Step) (q : Conf) : ℝ≥0∞ :=
  (ss.map fun s => (m + 1 : ℕ) * s.ψ q * ENNReal.ofReal (s.φ q)).prod

theorem wt_measurable {s : Step} (hs : s.OK C red σ) (hred : Measurable red) :
    Measurable (Function.uncurry (wt red m s)) := by
  refine (hs.φm.comp measurable_fst).add (Finset.measurable_sum _ fun i _ => ?_)
  refine hs.φm.comp ((update_measurable s.a).comp (measurable_fst.prodMk ?_))
  refine hred.comp (Measurable.sub ((measurable_pi_apply s.b).comp measurable_fst) ?_)
  exact (hs.lm.comp measurable_fst).smul ((measurable_pi_apply i).comp measurable_snd)

theorem product_measurable {ss : List Step} (hs : ∀ s ∈ ss, s.OK C red σ) :
    Measurable (product m ss) := by
  unfold product
  induction ss with
  | nil => exact measurable_const
  | cons s ss ih =>
    simp only [List.map_cons, List.prod_cons]
    have h := hs s List.mem_cons_self
    exact ((measurable_const.mul h.ψm).mul (ENNReal.measurable_ofReal.comp h.φm)).mul
      (ih fun s' hs' => hs s' (List.mem_cons_of_mem _ hs'))

theorem avg_weights_measurable [SigmaFinite σ] {ss : List Step} (hs : ∀ s ∈ ss, s.OK C red σ)
    (hred : Measurable red) {Z : Type} [MeasurableSpace Z] {H : Z → Conf → ℝ → ℝ≥0∞}
    (hH : Measurable fun y : (Z × Conf) × ℝ => H y.1.1 y.1.2 y.2) :
    Measurable fun y : Z × Conf =>
      avgP (Measure.pi fun _ : Fin m => σ) (weights red m ss y.2) (H y.1 y.2) := by
  have := avgP_measurable (μ := Measure.pi fun _ : Fin m => σ)
    (ws := ss.map fun s => fun (y : Z × Conf) us => wt red m s y.2 us) (H := fun y W => H y.1 y.2 W)
    (by
      intro w hw
      obtain ⟨s, hs', rfl⟩ := List.mem_map.1 hw
      exact (wt_measurable (hs s hs') hred).comp
        ((measurable_snd.comp measurable_fst).prodMk measurable_snd)) hH
  simp only [List.map_map, Function.comp_def] at this
  exact this

theorem wt_local {s : Step} {ss : List Step} (hl : ∀ s' ∈ ss, Local s s')
    {p q : Conf} (hq : Off (ss.map (·.a)) p q) :
    s.φ q = s.φ p ∧ s.ψ q = s.ψ p ∧ wt red m s q = wt red m s p := by
  have mem : ∀ a ∈ ss.map (·.a), ∃ s' ∈ ss, s'.a = a := fun a ha => by
    obtain ⟨s', h1, h2⟩ := List.mem_map.1 ha
    exact ⟨s', h1, h2⟩
  have hφ : ∀ {p q : Conf}, Off (ss.map (·.a)) p q → s.φ q = s.φ p := fun h => by
    refine off_eq (fun a ha q x => ?_) h
    obtain ⟨s', h1, rfl⟩ := mem a ha
    exact ((hl s' h1).2.2 q x).1
  have hψ : s.ψ q = s.ψ p := by
    refine off_eq (fun a ha q x => ?_) hq
    obtain ⟨s', h1, rfl⟩ := mem a ha
    exact ((hl s' h1).2.2 q x).2.1
  have hlen : s.len q = s.len p := by
    refine off_eq (fun a ha q x => ?_) hq
    obtain ⟨s', h1, rfl⟩ := mem a ha
    exact ((hl s' h1).2.2 q x).2.2
  have hb : q s.b = p s.b := hq _ fun h => by
    obtain ⟨s', h1, h2⟩ := mem _ h
    exact (hl s' h1).2.1 h2.symm
  refine ⟨hφ hq, hψ, ?_⟩
  funext us
  unfold wt trial
  rw [hφ hq, hlen, hb]
  congr 1
  refine Finset.sum_congr rfl fun i _ => hφ fun c hc => ?_
  by_cases hca : c = s.a
  · subst hca; simp
  · rw [Function.update_of_ne hca, Function.update_of_ne hca]
    exact hq c hc

theorem growth [SigmaFinite σ] (hred : Measurable red) (hC : MeasurableSet C)
    (hrC : ∀ x, red x ∈ C) : ∀ (ss : List Step) (_ : ∀ s ∈ ss, s.OK C red σ)
    (_ : ss.Pairwise Local) (p : Conf) (_ : ∀ s ∈ ss, p s.b ∈ C) (G : Conf → ℝ → ℝ≥0∞)
    (_ : Measurable (Function.uncurry G)),
    grow red σ m ss p G = sweep C (ss.map (·.a)) (fun q => product m ss q *
      avgP (Measure.pi fun _ : Fin m => σ) (weights red m ss q)
        fun W => G q W / ENNReal.ofReal W) p := by
  intro ss
  induction ss with
  | nil =>
    intro _ _ p _ G _
    simp [grow, sweep, product, weights, avgP]
  | cons s ss ih =>
    intro hs hpw p hp G hG
    have hs0 := hs s List.mem_cons_self
    have hss : ∀ s' ∈ ss, s'.OK C red σ := fun s' h => hs s' (List.mem_cons_of_mem _ h)
    have hl := (List.pairwise_cons.1 hpw).1
    have hpw' := (List.pairwise_cons.1 hpw).2
    obtain ⟨μ, hμ⟩ : ∃ μ : Measure (Fin m → Vec), μ = Measure.pi fun _ => σ := ⟨_, rfl⟩
    have hsf : SFinite μ := by rw [hμ]; infer_instance
    -- what follows the first atom, given its position and weight
    obtain ⟨Φ, hΦ⟩ : ∃ Φ : ℝ → Conf → ℝ≥0∞, Φ = fun W q => product m ss q *
        avgP μ (weights red m ss q) fun W' => G q (W * W') / ENNReal.ofReal W' := ⟨_, rfl⟩
    have hΦm : Measurable (Function.uncurry Φ) := by
      rw [hΦ, hμ]
      refine ((product_measurable hss).comp measurable_snd).mul ?_
      refine avg_weights_measurable hss hred
        (H := fun W q W' => G q (W * W') / ENNReal.ofReal W') ?_
      exact (hG.comp ((measurable_snd.comp measurable_fst).prodMk
        ((measurable_fst.comp measurable_fst).mul measurable_snd))).div
        (ENNReal.measurable_ofReal.comp measurable_snd)
    obtain ⟨H, hH⟩ : ∃ H : Vec → ℝ → ℝ≥0∞, H = fun x W =>
        sweep C (ss.map (·.a)) (Φ W) (Function.update p s.a x) := ⟨_, rfl⟩
    have hHm : Measurable (Function.uncurry H) := by
      rw [hH]
      have h1 := sweep_measurable (C := C) (ss.map (·.a)) hΦm
      exact h1.comp (measurable_snd.prodMk
        ((update_measurable s.a).comp (measurable_const.prodMk measurable_fst)))
    have hgrow : ∀ x ∈ C, ∀ W, grow red σ m ss (Function.update p s.a x)
        (fun q W' => G q (W * W')) = H x W := by
      intro x hx W
      rw [hH]
      simp only
      rw [hΦ, hμ]
      refine ih hss hpw' _ ?_ _ ?_
      · intro s' hs'
        by_cases h : s'.b = s.a
        · rw [h, Function.update_self]; exact hx
        · rw [Function.update_of_ne h]; exact hp s' (List.mem_cons_of_mem _ hs')
      · exact hG.comp (measurable_fst.prodMk (measurable_const.mul measurable_snd))
    have e1 : grow red σ m (s :: ss) p G = ∫⁻ ℓ, ∫⁻ us : Fin (m + 1) → Vec, ∑ j,
        ENNReal.ofReal (s.φ (Function.update p s.a (trial red s p ℓ (us j))) / total red s p ℓ us) *
          H (trial red s p ℓ (us j)) (total red s p ℓ us) ∂(Measure.pi fun _ => σ) ∂s.ρ := by
      unfold grow
      refine lintegral_congr fun ℓ => lintegral_congr fun us => Finset.sum_congr rfl fun j _ => ?_
      rw [hgrow (trial red s p ℓ (us j)) (hrC _)]
    rw [e1, one_step hs0 hred hC (hp s List.mem_cons_self) hHm, ← hμ]
    change _ = ∫⁻ x in C, sweep C (ss.map (·.a)) _ (Function.update p s.a x)
    refine setLIntegral_congr_fun hC fun x hx => ?_
    obtain ⟨px, hpx⟩ : ∃ px, px = Function.update p s.a x := ⟨_, rfl⟩
    rw [← hpx]
    obtain ⟨c, hc⟩ : ∃ c, c = (m + 1 : ℕ) * s.ψ px * ENNReal.ofReal (s.φ px) := ⟨_, rfl⟩
    rw [← hc]
    have hwpos : ∀ us, 0 < wt red m s px us := fun us =>
      add_pos_of_pos_of_nonneg (hs0.φpos _) (Finset.sum_nonneg fun i _ => (hs0.φpos _).le)
    have hwm : Measurable fun us => wt red m s px us :=
      (wt_measurable hs0 hred).comp (measurable_const.prodMk measurable_id)
    have hfm : Measurable (Function.uncurry fun us q =>
        (ENNReal.ofReal (wt red m s px us))⁻¹ * Φ (wt red m s px us) q) :=
      ((ENNReal.measurable_ofReal.comp hwm).inv.comp measurable_fst).mul
        (hΦm.comp ((hwm.comp measurable_fst).prodMk measurable_snd))
    have e2 : ∀ us, H x (wt red m s px us) / ENNReal.ofReal (wt red m s px us) =
        sweep C (ss.map (·.a)) (fun q =>
          (ENNReal.ofReal (wt red m s px us))⁻¹ * Φ (wt red m s px us) q) px := by
      intro us
      rw [sweep_const_mul, ENNReal.div_eq_inv_mul, hH, hpx]
      exact hΦm.comp (measurable_const.prodMk measurable_id)
    simp only [e2]
    rw [sweep_swap _ hfm, ← sweep_const_mul]
    · refine sweep_congr hC fun q hq _ => ?_
      obtain ⟨h1, h2, h3⟩ := wt_local (red := red) (m := m) hl hq
      have e3 : product m (s :: ss) q = c * product m ss q := by
        simp only [product, List.map_cons, List.prod_cons, h1, h2, hc]
      have e4 : weights red m (s :: ss) q = wt red m s px :: weights red m ss q := by
        simp only [weights, List.map_cons, h3]
      rw [e3, e4, mul_assoc]
      congr 1
      unfold avgP
      have hmq : ∀ w ∈ weights red m ss q, Measurable w := by
        intro w hw
        obtain ⟨s', hs', rfl⟩ := List.mem_map.1 hw
        exact (wt_measurable (hss s' hs') hred).comp (measurable_const.prodMk measurable_id)
      rw [← lintegral_const_mul]
      · refine lintegral_congr fun us => ?_
        rw [hΦ]
        simp only
        rw [mul_left_comm]
        congr 1
        rw [← avgP_const_mul _ _ hmq]
        · congr 1
          funext W'
          rw [ENNReal.ofReal_mul (hwpos us).le, ENNReal.div_eq_inv_mul, ENNReal.div_eq_inv_mul,
            ENNReal.mul_inv (Or.inr ENNReal.ofReal_ne_top) (Or.inl ENNReal.ofReal_ne_top), mul_assoc]
        · exact (hG.comp (measurable_const.prodMk (measurable_const.mul measurable_id))).div
            ENNReal.measurable_ofReal
      · obtain ⟨Γ, hΓ⟩ : ∃ Γ : (Fin m → Vec) → ℝ → ℝ≥0∞, Γ = fun us W =>
          G q (wt red m s px us * W) / ENNReal.ofReal (wt red m s px us * W) := ⟨_, rfl⟩
        have h6 : Measurable (Function.uncurry Γ) := by
          rw [hΓ]
          have h5 : Measurable fun y : (Fin m → Vec) × ℝ => wt red m s px y.1 * y.2 :=
            (hwm.comp measurable_fst).mul measurable_snd
          exact (hG.comp (measurable_const.prodMk h5)).div (ENNReal.measurable_ofReal.comp h5)
        have h7 := avgP_measurable_const (μ := μ) hmq h6
        rw [hΓ] at h7
        exact h7
    · have : Measurable fun y : Conf × (Fin m → Vec) =>
          (ENNReal.ofReal (wt red m s px y.2))⁻¹ * Φ (wt red m s px y.2) y.1 :=
        ((ENNReal.measurable_ofReal.comp hwm).inv.comp measurable_snd).mul
          (hΦm.comp ((hwm.comp measurable_snd).prodMk measurable_fst))
      exact this.lintegral_prod_right'

/-! ### Symmetry of the flow -/

theorem avgP_sweep {D : Type} [MeasurableSpace D] {μ : Measure D} [SFinite μ] {ws : List (D → ℝ)}
    (hw : ∀ w ∈ ws, Measurable w) (l : List ℕ) {J : ℝ → Conf → ℝ≥0∞}
    (hJ : Measurable (Function.uncurry J)) (p : Conf) :
    avgP μ ws (fun W => sweep C l (J W) p) = sweep C l (fun q => avgP μ ws fun W => J W q) p := by
  induction ws generalizing J with
  | nil => rfl
  | cons w ws ih =>
    have hw0 : Measurable w := hw w List.mem_cons_self
    have hws : ∀ v ∈ ws, Measurable v := fun v hv => hw v (List.mem_cons_of_mem _ hv)
    change ∫⁻ d, avgP μ ws (fun W => sweep C l (J (w d * W)) p) ∂μ =
      sweep C l (fun q => ∫⁻ d, avgP μ ws (fun W => J (w d * W) q) ∂μ) p
    have h1 : ∀ d, avgP μ ws (fun W => sweep C l (J (w d * W)) p) =
        sweep C l (fun q => avgP μ ws fun W => J (w d * W) q) p := fun d =>
      ih hws (J := fun W => J (w d * W))
        (hJ.comp ((measurable_const.mul measurable_fst).prodMk measurable_snd))
    simp only [h1]
    refine sweep_swap l (G := fun d q => avgP μ ws fun W => J (w d * W) q) ?_ p
    refine avgP_measurable_const (Q := D × Conf) (H := fun y W => J (w y.1 * W) y.2) hws ?_
    exact hJ.comp (((hw0.comp (measurable_fst.comp measurable_fst)).mul measurable_snd).prodMk
      (measurable_snd.comp measurable_fst))

theorem wt_pos {s : Step} (hs : s.OK C red σ) (q : Conf) (us : Fin m → Vec) : 0 < wt red m s q us :=
  add_pos_of_pos_of_nonneg (hs.φpos _) (Finset.sum_nonneg fun _ _ => (hs.φpos _).le)

/-- The acceptance probability over the Rosenbluth weight of the new chain is symmetric. -/
theorem accept_symm {x y : ℝ} (hx : 0 < x) (hy : 0 < y) :
    ENNReal.ofReal (min 1 (y / x)) / ENNReal.ofReal y =
      ENNReal.ofReal (min 1 (x / y)) / ENNReal.ofReal x := by
  rw [← ENNReal.ofReal_div_of_pos hy, ← ENNReal.ofReal_div_of_pos hx]
  congr 1
  rw [← min_div_div_right hy.le, ← min_div_div_right hx.le]
  rw [div_div, mul_comm x y, ← div_div, div_self hy.ne', div_div, mul_comm y x, ← div_div,
    div_self hx.ne', min_comm]

/-- Flow from `A` to `B`: weight of a configuration in `A`, Rosenbluth weight of the old chain
(atoms in the order of deletion), growth of a new one and its acceptance. -/
noncomputable def flow (C : Set Vec) (red : Vec → Vec) (σ : Measure Vec) (m : ℕ) (ss : List Step)
    (wgt : Conf → ℝ≥0∞) (A B : Set Conf) (p : Conf) : ℝ≥0∞ :=
  sweep C (ss.map (·.a)) (fun q => A.indicator 1 q * wgt q *
    avgP (Measure.pi fun _ : Fin m => σ) (weights red m ss q).reverse fun Wr =>
      grow red σ m ss q fun q' Wf => B.indicator 1 q' * ENNReal.ofReal (min 1 (Wf / Wr))) p

theorem flow_symm [SigmaFinite σ] (hred : Measurable red) (hC : MeasurableSet C)
    (hrC : ∀ x, red x ∈ C) {ss : List Step} (hs : ∀ s ∈ ss, s.OK C red σ)
    (hpw : ss.Pairwise Local) {p : Conf} (hp : ∀ s ∈ ss, p s.b ∈ C) {wgt : Conf → ℝ≥0∞}
    {K : ℝ≥0∞} {A B : Set Conf} (hA : MeasurableSet A) (hB : MeasurableSet B)
    (hw : ∀ q, Off (ss.map (·.a)) p q → (∀ a ∈ ss.map (·.a), q a ∈ C) → q ∈ A ∪ B →
      wgt q = K * product m ss q) :
    flow C red σ m ss wgt A B p = flow C red σ m ss wgt B A p := by
  obtain ⟨μ, hμ⟩ : ∃ μ : Measure (Fin m → Vec), μ = Measure.pi fun _ => σ := ⟨_, rfl⟩
  have hsf : SFinite μ := by rw [hμ]; infer_instance
  obtain ⟨as, has⟩ : ∃ as, as = ss.map (·.a) := ⟨_, rfl⟩
  obtain ⟨κ, hκ⟩ : ∃ κ : ℝ → ℝ → ℝ≥0∞, κ = fun Wr Wf =>
    ENNReal.ofReal (min 1 (Wf / Wr)) / ENNReal.ofReal Wf := ⟨_, rfl⟩
  have hκm : Measurable (Function.uncurry κ) := by
    rw [hκ]
    exact (ENNReal.measurable_ofReal.comp (measurable_const.min
      (measurable_snd.div measurable_fst))).div (ENNReal.measurable_ofReal.comp measurable_snd)
  have hwm : ∀ q, ∀ w ∈ weights red m ss q, Measurable w := by
    intro q w hw
    obtain ⟨s', hs', rfl⟩ := List.mem_map.1 hw
    exact (wt_measurable (hs s' hs') hred).comp (measurable_const.prodMk measurable_id)
  have hwp : ∀ q, ∀ w ∈ weights red m ss q, ∀ us, 0 < w us := by
    intro q w hw us
    obtain ⟨s', hs', rfl⟩ := List.mem_map.1 hw
    exact wt_pos (hs s' hs') q us
  obtain ⟨S, hS⟩ : ∃ S : Conf → Conf → ℝ≥0∞, S = fun q q' =>
    avgP μ (weights red m ss q) fun Wr => avgP μ (weights red m ss q') (κ Wr) := ⟨_, rfl⟩
  have hSs : ∀ q q', S q q' = S q' q := by
    intro q q'
    rw [hS]
    simp only
    rw [avgP_avgP (hwm q) (hwm q') hκm]
    refine avgP_congr (hwp q') fun W' hW' => avgP_congr (hwp q) fun W hW => ?_
    rw [hκ]
    exact accept_symm hW hW'
  have hSm : Measurable (Function.uncurry S) := by
    rw [hS, hμ]
    have h1 : Measurable fun y : ℝ × Conf =>
        avgP (Measure.pi fun _ : Fin m => σ) (weights red m ss y.2) (κ y.1) :=
      avg_weights_measurable hs hred (H := fun Wr _ Wf => κ Wr Wf)
        (hκm.comp ((measurable_fst.comp measurable_fst).prodMk measurable_snd))
    have h2 : Measurable fun y : Conf × Conf =>
        avgP (Measure.pi fun _ : Fin m => σ) (weights red m ss y.2) fun Wr =>
          avgP (Measure.pi fun _ : Fin m => σ) (weights red m ss y.1) (κ Wr) :=
      avg_weights_measurable hs hred (H := fun (q' : Conf) (_ : Conf) Wr =>
        avgP (Measure.pi fun _ : Fin m => σ) (weights red m ss q') (κ Wr))
        (h1.comp (measurable_snd.prodMk (measurable_fst.comp measurable_fst)))
    exact h2.comp measurable_swap
  have hpm := product_measurable (m := m) hs
  have main : ∀ A B : Set Conf, MeasurableSet A → MeasurableSet B →
      (∀ q, Off (ss.map (·.a)) p q → (∀ a ∈ ss.map (·.a), q a ∈ C) → q ∈ A →
        wgt q = K * product m ss q) →
      flow C red σ m ss wgt A B p = sweep C as (fun q => sweep C as (fun q' =>
        (A.indicator 1 q * K * product m ss q) * ((B.indicator 1 q' * product m ss q') * S q q')) p) p := by
    intro A B hA hB hw
    have hAm : Measurable (A.indicator (1 : Conf → ℝ≥0∞)) := measurable_one.indicator hA
    have hBm : Measurable (B.indicator (1 : Conf → ℝ≥0∞)) := measurable_one.indicator hB
    unfold flow
    rw [← has, ← hμ]
    refine sweep_congr hC fun q hq hqC => ?_
    by_cases hqA : q ∈ A
    swap
    · rw [Set.indicator_of_notMem hqA]
      simp only [zero_mul]
      have : ∀ l p, sweep C l (fun _ => 0) p = 0 := by
        intro l
        induction l with
        | nil => intro p; rfl
        | cons a l ih => intro p; unfold sweep; simp [ih]
      rw [this]
    have hq' : ∀ s ∈ ss, q s.b ∈ C := by
      intro s hs'
      by_cases h : s.b ∈ as
      · exact hqC _ h
      · rw [hq _ h]; exact hp s hs'
    rw [hw q (has ▸ hq) (has ▸ hqC) hqA]
    have hg : ∀ Wr, grow red σ m ss q (fun q' Wf => B.indicator 1 q' * ENNReal.ofReal (min 1 (Wf / Wr))) =
        sweep C as (fun q' => (B.indicator 1 q' * product m ss q') *
          avgP μ (weights red m ss q') (κ Wr)) p := by
      intro Wr
      rw [growth hred hC hrC ss hs hpw q hq', ← has, ← hμ, sweep_off hq]
      · refine sweep_congr hC fun q' _ _ => ?_
        rw [mul_comm (B.indicator 1 q'), mul_assoc]
        congr 1
        rw [← avgP_const_mul _ _ (hwm q')]
        · congr 1
          funext Wf
          rw [hκ]
          simp only [div_eq_mul_inv, mul_assoc]
        · exact hκm.comp (measurable_const.prodMk measurable_id)
      · exact (hBm.comp measurable_fst).mul (ENNReal.measurable_ofReal.comp
          (measurable_const.min (measurable_snd.div measurable_const)))
    have hJm : Measurable (Function.uncurry fun (Wr : ℝ) (q' : Conf) =>
        (B.indicator 1 q' * product m ss q') * avgP μ (weights red m ss q') (κ Wr)) := by
      rw [hμ]
      refine ((hBm.mul hpm).comp measurable_snd).mul ?_
      exact avg_weights_measurable hs hred (H := fun Wr _ Wf => κ Wr Wf)
        (hκm.comp ((measurable_fst.comp measurable_fst).prodMk measurable_snd))
    simp only [hg]
    rw [avgP_perm (List.reverse_perm _) (by
      intro w hw
      exact hwm q w (List.mem_reverse.1 hw)) (by
      exact (sweep_measurable (C := C) as hJm).comp (measurable_id.prodMk measurable_const)),
      avgP_sweep (hwm q) as hJm p, ← mul_assoc, ← sweep_const_mul]
    · refine sweep_congr hC fun q' _ _ => ?_
      rw [hS]
      congr 1
      rw [← avgP_const_mul _ _ (hwm q)]
      have := (avg_weights_measurable (m := m) hs hred (H := fun Wr _ Wf => κ Wr Wf)
        (hκm.comp ((measurable_fst.comp measurable_fst).prodMk measurable_snd)))
      rw [← hμ] at this
      exact this.comp (measurable_id.prodMk measurable_const)
    · have h1 : Measurable fun y : Conf × ℝ =>
          (B.indicator 1 y.1 * product m ss y.1) * avgP μ (weights red m ss y.1) (κ y.2) :=
        hJm.comp measurable_swap
      exact avgP_measurable_const (H := fun q' Wr =>
        (B.indicator 1 q' * product m ss q') * avgP μ (weights red m ss q') (κ Wr)) (hwm q) h1
  rw [main A B hA hB fun q h1 h2 h3 => hw q h1 h2 (Or.inl h3),
    main B A hB hA fun q h1 h2 h3 => hw q h1 h2 (Or.inr h3), sweep_sweep]
  · refine sweep_congr hC fun q _ _ => sweep_congr hC fun q' _ _ => ?_
    rw [hSs]
    ring
  · have hAm : Measurable (A.indicator (1 : Conf → ℝ≥0∞)) := measurable_one.indicator hA
    have hBm : Measurable (B.indicator (1 : Conf → ℝ≥0∞)) := measurable_one.indicator hB
    exact ((((hAm.mul_const K).mul hpm)).comp measurable_fst).mul
      (((hBm.mul hpm).comp measurable_snd).mul hSm)

end Grow

end Verif.Cfb
