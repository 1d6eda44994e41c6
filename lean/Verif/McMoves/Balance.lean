/-
C40: detailed balance with respect to the Boltzmann distribution.

`flow A B` is the probability weight of being in `A`, proposing a displacement
and accepting a move into `B`.  Integration over displacements is the outer one,
so that no measurability of the energy has to be assumed.
-/
import Verif.McMoves.Measure

set_option autoImplicit false

namespace Verif.McMoves

open Verif.Boundary Verif.McCellList Verif.McCell MeasureTheory
open Verif.Cpp
open Verif.Cpp.Out
open scoped ENNReal

variable {w : World} {lengths : Vec} {bravais : Fin 3 → Vec} {cutoff : ℝ}

/-- Boltzmann weight of a state. -/
noncomputable def boltzmannWeight (w : World) (s : Sys) : ℝ≥0∞ :=
  ENNReal.ofReal (Real.exp (-w.beta * energy w s.pos s.typ))

/-- Positions displaced by at most δ are wrapped into the primary cell (C23). -/
def Wraps (w : World) (bravais : Fin 3 → Vec) (δ : ℝ) : Prop :=
  ∀ r ∈ cell w.gen, ∀ u ∈ displacements δ,
    w.shift (r + u) ∈ cell w.gen ∧ w.shift (r + u) - (r + u) ∈ lattice bravais

theorem Wraps.reduce {δ : ℝ} (h : Wraps w bravais δ) (g : Geo w.gen lengths bravais)
    {r u : Vec} (hr : r ∈ cell w.gen) (hu : u ∈ displacements δ) :
    w.shift (r + u) = reduce w.gen bravais (r + u) :=
  ((reduction g).eq (h r hr u hu).1 (h r hr u hu).2).symm

theorem displacements_measurable (δ : ℝ) : MeasurableSet (displacements δ) :=
  MeasurableSet.univ_pi fun _ => measurableSet_Ico

/-- Symmetry of the proposal. -/
theorem flow_symm {E : Type} [AddCommGroup E] [MeasurableSpace E] [MeasurableAdd₂ E]
    [MeasurableNeg E] {μ : Measure E} [μ.IsAddLeftInvariant] {L : AddSubgroup E} [Countable L]
    {C : Set E} {red : E → E} (h : Reduction L C red) (hC : MeasurableSet C) (emb : Vec → E)
    (hemb : ∀ u, emb (-u) = -emb u) (δ : ℝ) (K : E → E → ℝ≥0∞) :
    ∫⁻ u in displacements δ, ∫⁻ x in C, K x (red (x + emb u)) ∂μ =
      ∫⁻ u in displacements δ, ∫⁻ x in C, K (red (x + emb u)) x ∂μ := by
  rw [← displacements_neg δ fun u => ∫⁻ x in C, K (red (x + emb u)) x ∂μ]
  refine lintegral_congr fun u => ?_
  rw [h.translate hC K (emb u), hemb]

/-- The Boltzmann weight times the acceptance probability, between two states
of given energies. -/
noncomputable def rate (β : ℝ) (e e' : ℝ) : ℝ≥0∞ :=
  ENNReal.ofReal (Real.exp (-β * e)) * ENNReal.ofReal (min 1 (Real.exp (-β * (e' - e))))

theorem rate_symm (β e e' : ℝ) : rate β e e' = rate β e' e := by
  unfold rate
  have h : ∀ x y : ℝ, Real.exp (-β * (y - x)) = Real.exp (-β * y) / Real.exp (-β * x) := fun x y => by
    rw [← Real.exp_sub]; congr 1; ring
  rw [h, h]
  exact balance_min (Real.exp_pos _) (Real.exp_pos _)

/-! ### Displacement of an atom -/

/-- Flow from `A` to `B` for displacements of the atom `a`; `st r` is a state of
the program with that atom at `r`. -/
noncomputable def atomFlow (w : World) (a : ℕ) (δ : ℝ) (st : Vec → Sys) (A B : Set Vec) : ℝ≥0∞ :=
  ∫⁻ u in displacements δ, ∫⁻ r in cell w.gen,
    A.indicator (fun r => boltzmannWeight w (st r) *
      prob fun v => ∃ s', atomDisplace w a u v (st r) = .ok (s', true) ∧ s'.pos a ∈ B) r

/-- **C40 (displacement of an atom).**  Detailed balance: the flow from `A` to
`B` equals the flow from `B` to `A`, for any positions of the other atoms and all
sets of positions of the atom. -/
theorem C40_atom (ok : w.OK lengths bravais cutoff) {a : ℕ} (ha : a ∈ w.atoms) {δ : ℝ}
    (hw : Wraps w bravais δ) {st : Vec → Sys} {p : ℕ → Vec} {t : ℕ → ℕ}
    (hst : ∀ r ∈ cell w.gen, (st r).pos = Function.update p a r ∧ (st r).typ = t ∧
      At w lengths cutoff (st r).cells (st r).pos)
    (hf : ∀ r ∈ cell w.gen, Fits w (grid lengths cutoff) (Function.update p a r))
    (A B : Set Vec) : atomFlow w a δ st A B = atomFlow w a δ st B A := by
  classical
  set e : Vec → ℝ := fun r => energy w (Function.update p a r) t with he
  set K : Set Vec → Set Vec → Vec → Vec → ℝ≥0∞ := fun A B r r' =>
    if r ∈ A ∧ r' ∈ B then rate w.beta (e r) (e r') else 0 with hK
  have hKs : ∀ A B r r', K A B r r' = K B A r' r := by
    intro A B r r'
    simp only [hK]
    rw [rate_symm]
    exact if_congr and_comm rfl rfl
  have key : ∀ A B, atomFlow w a δ st A B =
      ∫⁻ u in displacements δ, ∫⁻ r in cell w.gen, K A B r (reduce w.gen bravais (r + u)) := by
    intro A B
    unfold atomFlow
    refine setLIntegral_congr_fun (displacements_measurable δ) fun u hu => ?_
    refine setLIntegral_congr_fun (cell_measurable ok.geo) fun r hr => ?_
    change A.indicator _ r = K A B r (reduce w.gen bravais (r + u))
    obtain ⟨h1, h2, h3⟩ := hst r hr
    have hred := hw.reduce ok.geo hr hu
    have hmem := (hw r hr u hu).1
    rw [← hred]
    have hpos : (st r).pos a = r := by rw [h1, Function.update_self]
    have hupd : Function.update (st r).pos a (w.shift ((st r).pos a + u)) =
        Function.update p a (w.shift (r + u)) := by
      rw [hpos, h1, Function.update_idem]
    have hp : prob (fun v => ∃ s', atomDisplace w a u v (st r) = .ok (s', true) ∧ s'.pos a ∈ B) =
        if w.shift (r + u) ∈ B then
          ENNReal.ofReal (min 1 (Real.exp (-w.beta * (e (w.shift (r + u)) - e r)))) else 0 := by
      split
      · next hB =>
        rw [← prob_metropolis (Real.exp_pos _).le]
        refine prob_congr fun v _ _ => ?_
        obtain ⟨c, -, hc⟩ := C39_atom ok h3 ha u v (by rw [hpos]; exact hmem) (by
          rw [hupd]; exact hf _ hmem)
        rw [hc]
        have hA : Accepts w (st r).pos (Function.update (st r).pos a (w.shift ((st r).pos a + u)))
            (st r).typ (st r).typ v = metropolis (Real.exp (-w.beta * (e (w.shift (r + u)) - e r))) v := by
          unfold Accepts
          rw [hupd, h1, h2]
        rw [hA]
        cases hm : metropolis (Real.exp (-w.beta * (e (w.shift (r + u)) - e r))) v
        · simp
        · simp only [if_true, iff_true]
          refine ⟨_, rfl, ?_⟩
          simp only [Function.update_self, hpos]
          exact hB
      · next hB =>
        rw [← prob_false]
        refine prob_congr fun v _ _ => iff_of_false ?_ (fun h => h)
        rintro ⟨s', hs', hs''⟩
        obtain ⟨c, -, hc⟩ := C39_atom ok h3 ha u v (by rw [hpos]; exact hmem) (by
          rw [hupd]; exact hf _ hmem)
        rw [hc] at hs'
        split at hs'
        · simp only [Out.ok.injEq, Prod.mk.injEq, and_true] at hs'
          rw [← hs'] at hs''
          simp only [Function.update_self, hpos] at hs''
          exact hB hs''
        · simp at hs'
    by_cases hA : r ∈ A
    · rw [Set.indicator_of_mem hA, hp]
      simp only [hK, hA, true_and]
      split
      · unfold boltzmannWeight rate
        rw [h1, h2]
      · simp
    · rw [Set.indicator_of_notMem hA]
      simp only [hK, hA, false_and, if_false]
  rw [key A B, key B A]
  refine (flow_symm (μ := volume) (reduction ok.geo) (cell_measurable ok.geo) id (fun _ => rfl) δ
    (K A B)).trans ?_
  simp only [hKs A B, id]

/-! ### Rigid displacement of a molecule -/

/-- The atoms of a molecule. -/
abbrev Mol (w : World) (m : ℕ) : Type := {a : ℕ // a ∈ (w.molAtoms m).toFinset}

/-- Positions of the atoms of a molecule, those of the others being given. -/
def place (w : World) (m : ℕ) (p : ℕ → Vec) (x : Mol w m → Vec) : ℕ → Vec :=
  fun a => if h : a ∈ (w.molAtoms m).toFinset then x ⟨a, h⟩ else p a

theorem place_mem {m : ℕ} (p : ℕ → Vec) (x : Mol w m → Vec) (i : Mol w m) :
    place w m p x i.1 = x i := by
  unfold place
  rw [dif_pos i.2]

theorem displaced_place {m : ℕ} (p : ℕ → Vec) (x : Mol w m → Vec) (dr : Vec) :
    displaced w (w.molAtoms m) dr (place w m p x) = place w m p fun i => w.shift (x i + dr) := by
  funext a
  unfold displaced place
  by_cases h : a ∈ w.molAtoms m
  · simp [h]
  · simp [h]

/-- Flow between sets of configurations of the molecule `m`. -/
noncomputable def rigidFlow (w : World) (m : ℕ) (δ : ℝ) (st : (Mol w m → Vec) → Sys)
    (A B : Set (Mol w m → Vec)) : ℝ≥0∞ :=
  ∫⁻ u in displacements δ, ∫⁻ x in cells (Mol w m) w.gen,
    A.indicator (fun x => boltzmannWeight w (st x) *
      prob fun v => ∃ s', rigidDisplace w m u v (st x) = .ok (s', true) ∧
        (fun i : Mol w m => s'.pos i.1) ∈ B) x

/-- **C40 (rigid displacement).**  Detailed balance, if all pairs within the
molecule are masked and displacements of the molecule change neither bonded
energies nor energies of links. -/
theorem C40_rigid (ok : w.OK lengths bravais cutoff) {m : ℕ} {δ : ℝ}
    (hw : Wraps w bravais δ) {st : (Mol w m → Vec) → Sys} {p : ℕ → Vec} {t : ℕ → ℕ}
    (hm : FullyMasked w m)
    (hst : ∀ x ∈ cells (Mol w m) w.gen, (st x).pos = place w m p x ∧ (st x).typ = t ∧
      At w lengths cutoff (st x).cells (st x).pos)
    (hf : ∀ x ∈ cells (Mol w m) w.gen, ∀ x' ∈ cells (Mol w m) w.gen,
      FitsBoth w (grid lengths cutoff) (place w m p x) (place w m p x'))
    (hb : ∀ x ∈ cells (Mol w m) w.gen, ∀ u ∈ displacements δ,
      (w.bonded.map fun y => y.energy (place w m p fun i => w.shift (x i + u))).sum =
        (w.bonded.map fun y => y.energy (place w m p x)).sum)
    (hl : ∀ x ∈ cells (Mol w m) w.gen, ∀ u ∈ displacements δ,
      (w.links.map fun y => y.energy (place w m p fun i => w.shift (x i + u))).sum =
        (w.links.map fun y => y.energy (place w m p x)).sum)
    (A B : Set (Mol w m → Vec)) : rigidFlow w m δ st A B = rigidFlow w m δ st B A := by
  classical
  set e : (Mol w m → Vec) → ℝ := fun x => energy w (place w m p x) t with he
  set K : Set (Mol w m → Vec) → Set (Mol w m → Vec) → (Mol w m → Vec) → (Mol w m → Vec) → ℝ≥0∞ :=
    fun A B r r' => if r ∈ A ∧ r' ∈ B then rate w.beta (e r) (e r') else 0 with hK
  have hKs : ∀ A B r r', K A B r r' = K B A r' r := by
    intro A B r r'
    simp only [hK]
    rw [rate_symm]
    exact if_congr and_comm rfl rfl
  have key : ∀ A B, rigidFlow w m δ st A B =
      ∫⁻ u in displacements δ, ∫⁻ x in cells (Mol w m) w.gen,
        K A B x (fun i => reduce w.gen bravais (x i + u)) := by
    intro A B
    unfold rigidFlow
    refine setLIntegral_congr_fun (displacements_measurable δ) fun u hu => ?_
    refine setLIntegral_congr_fun (cells_measurable ok.geo) fun x hx => ?_
    change A.indicator _ x = K A B x _
    obtain ⟨h1, h2, h3⟩ := hst x hx
    have hxi : ∀ i, x i ∈ cell w.gen := fun i => hx i (Set.mem_univ i)
    set x' : Mol w m → Vec := fun i => w.shift (x i + u) with hx'
    have hred : (fun i => reduce w.gen bravais (x i + u)) = x' := by
      funext i
      exact (hw.reduce ok.geo (hxi i) hu).symm
    rw [hred]
    have hmem : x' ∈ cells (Mol w m) w.gen := fun i _ => (hw (x i) (hxi i) u hu).1
    have hdis : displaced w (w.molAtoms m) u (st x).pos = place w m p x' := by
      rw [h1, displaced_place]
    have hmove := fun v => C40_rigid_accepts ok h3 m u v (by
        intro a ha
        have e1 : (st x).pos a = x ⟨a, List.mem_toFinset.2 ha⟩ := by
          rw [h1]; exact place_mem p x ⟨a, List.mem_toFinset.2 ha⟩
        rw [e1]
        exact (hw _ (hxi _) u hu).1)
      (by rw [hdis, h1]; exact hf x hx x' hmem) hm
      (by rw [hdis, h1]; exact hb x hx u hu) (by rw [hdis, h1]; exact hl x hx u hu)
    have hback : (fun i : Mol w m => place w m p x' i.1) = x' := by
      funext i; exact place_mem p x' i
    have hp : prob (fun v => ∃ s', rigidDisplace w m u v (st x) = .ok (s', true) ∧
        (fun i : Mol w m => s'.pos i.1) ∈ B) =
        if x' ∈ B then ENNReal.ofReal (min 1 (Real.exp (-w.beta * (e x' - e x)))) else 0 := by
      split
      · next hB =>
        rw [← prob_metropolis (Real.exp_pos _).le]
        refine prob_congr fun v _ _ => ?_
        obtain ⟨c, -, hc⟩ := hmove v
        rw [hc]
        have hA : Accepts w (st x).pos (displaced w (w.molAtoms m) u (st x).pos)
            (st x).typ (st x).typ v = metropolis (Real.exp (-w.beta * (e x' - e x))) v := by
          unfold Accepts
          rw [hdis, h1, h2]
        rw [hA]
        cases hm : metropolis (Real.exp (-w.beta * (e x' - e x))) v
        · simp
        · simp only [if_true, iff_true]
          refine ⟨_, rfl, ?_⟩
          simp only [hdis, hback]
          exact hB
      · next hB =>
        rw [← prob_false]
        refine prob_congr fun v _ _ => iff_of_false ?_ (fun h => h)
        rintro ⟨s', hs', hs''⟩
        obtain ⟨c, -, hc⟩ := hmove v
        rw [hc] at hs'
        split at hs'
        · simp only [Out.ok.injEq, Prod.mk.injEq, and_true] at hs'
          rw [← hs'] at hs''
          simp only [hdis, hback] at hs''
          exact hB hs''
        · simp at hs'
    by_cases hA : x ∈ A
    · rw [Set.indicator_of_mem hA, hp]
      simp only [hK, hA, true_and]
      split
      · unfold boltzmannWeight rate
        rw [h1, h2]
      · simp
    · rw [Set.indicator_of_notMem hA]
      simp only [hK, hA, false_and, if_false]
  rw [key A B, key B A]
  refine (flow_symm (μ := volume) (reductions ok.geo) (cells_measurable ok.geo) (fun u _ => u)
    (fun _ => rfl) δ (K A B)).trans ?_
  simp only [hKs A B, Pi.add_apply]

/-! ### Swap of chain ends -/

theorem FitsBoth.symm {n : IVec} {q q' : ℕ → Vec} (h : FitsBoth w n q q') : FitsBoth w n q' q :=
  fun c T hT hb => h c T hT fun a ha => (hb a ha).symm

/-- **C40 (swap of chain ends).**  Between a state and the one with the positions
reversed, weight times probability of the transition is symmetric. -/
theorem C40_swap (ok : w.OK lengths bravais cutoff) {s s' : Sys} (m : ℕ)
    (h : At w lengths cutoff s.cells s.pos) (h' : At w lengths cutoff s'.cells s'.pos)
    (hpos : s'.pos = s.pos ∘ flip (w.molAtoms m)) (htyp : s'.typ = s.typ)
    (hf : FitsBoth w (grid lengths cutoff) s.pos s'.pos)
    (hm : MaskSymmetric w m) (ht : TermsSymmetric w s.pos m) :
    boltzmannWeight w s * prob (fun v => ∃ s2,
        endSwap w m ((w.molAtoms m).map s.typ) v s = .ok (s2, true) ∧ s2.pos = s'.pos) =
      boltzmannWeight w s' * prob (fun v => ∃ s2,
        endSwap w m ((w.molAtoms m).map s.typ) v s' = .ok (s2, true) ∧ s2.pos = s.pos) := by
  have hff := flip_flip (ok.molNodup m)
  have hback : s'.pos ∘ flip (w.molAtoms m) = s.pos := by
    rw [hpos]; funext a; simp only [Function.comp, hff]
  have ht' : TermsSymmetric w s'.pos m := by
    unfold TermsSymmetric at ht ⊢
    rw [hback]
    have e : ∀ a, s'.pos (flip (w.molAtoms m) a) = s.pos a := fun a => congrFun hback a
    simp only [e, hpos]
    exact ht.symm
  have main : ∀ s s' : Sys, At w lengths cutoff s.cells s.pos →
      s'.pos = s.pos ∘ flip (w.molAtoms m) → s'.typ = s.typ →
      FitsBoth w (grid lengths cutoff) s.pos s'.pos → TermsSymmetric w s.pos m →
      boltzmannWeight w s * prob (fun v => ∃ s2,
        endSwap w m ((w.molAtoms m).map s.typ) v s = .ok (s2, true) ∧ s2.pos = s'.pos) =
      rate w.beta (energy w s.pos s.typ) (energy w s'.pos s'.typ) := by
    intro s s' h hpos htyp hf ht
    unfold rate boltzmannWeight
    congr 1
    rw [← prob_metropolis (Real.exp_pos _).le]
    refine prob_congr fun v _ _ => ?_
    obtain ⟨c, -, hc⟩ := C40_swap_accepts ok h m v (by rw [← hpos]; exact hf) hm ht
    rw [hc]
    have hA : Accepts w s.pos (s.pos ∘ flip (w.molAtoms m)) s.typ s.typ v =
        metropolis (Real.exp (-w.beta * (energy w s'.pos s'.typ - energy w s.pos s.typ))) v := by
      unfold Accepts
      rw [hpos, htyp]
    rw [hA]
    cases metropolis (Real.exp (-w.beta * (energy w s'.pos s'.typ - energy w s.pos s.typ))) v
    · simp
    · simp only [if_true, iff_true]
      exact ⟨_, rfl, hpos.symm⟩
  have e1 := main s s' h hpos htyp hf ht
  have e2 := main s' s h' hback.symm htyp.symm hf.symm ht'
  rw [htyp] at e2
  rw [e1, e2, htyp, rate_symm]

/-! ### Semigrand move -/

/-- Weight of a state in the semigrand ensemble, as far as the molecule `m` is
concerned. -/
noncomputable def sgWeight (w : World) (s : Sys) (c : Fin 2) : ℝ≥0∞ :=
  ENNReal.ofReal (Real.exp (-w.beta * energy w s.pos s.typ) * w.weight c)

theorem toggle_toggle (c : Fin 2) : toggle (some (toggle (some c))) = c := by
  fin_cases c <;> simp [toggle]

/-- **C40 (semigrand move).**  If the external energy does not depend on the
type of an atom, weight times probability of the transition is symmetric. -/
theorem C40_semigrand (ok : w.OK lengths bravais cutoff) {s s' : Sys} (m : ℕ)
    (h : At w lengths cutoff s.cells s.pos) (h' : At w lengths cutoff s'.cells s'.pos)
    {c : Fin 2} (hc : s.state m = some c) (hc' : s'.state m = some (toggle (some c)))
    (ht : ∀ a ∈ w.molAtoms m, s.typ a = w.stateType c)
    (hpos : s'.pos = s.pos) (htyp : s'.typ = typesOf w m (toggle (some c)) s.typ)
    (hx : ∀ r t t', w.ext r t = w.ext r t') (hwt : ∀ c, 0 < w.weight c) :
    sgWeight w s c * prob (fun v => ∃ s2, semiGrand w m v s = .ok (s2, true) ∧ s2.typ = s'.typ) =
      sgWeight w s' (toggle (some c)) *
        prob (fun v => ∃ s2, semiGrand w m v s' = .ok (s2, true) ∧ s2.typ = s.typ) := by
  have hback : s.typ = typesOf w m c s'.typ := by
    rw [htyp]
    funext a
    unfold typesOf
    split
    · next ha => exact ht a ha
    · rfl
  have main : ∀ (s s' : Sys) (c : Fin 2), At w lengths cutoff s.cells s.pos → s.state m = some c →
      (∀ a ∈ w.molAtoms m, s.typ a = w.stateType c) → s'.pos = s.pos →
      s'.typ = typesOf w m (toggle (some c)) s.typ →
      prob (fun v => ∃ s2, semiGrand w m v s = .ok (s2, true) ∧ s2.typ = s'.typ) =
      ENNReal.ofReal (min 1 ((Real.exp (-w.beta * energy w s'.pos s'.typ) * w.weight (toggle (some c))) /
        (Real.exp (-w.beta * energy w s.pos s.typ) * w.weight c))) := by
    intro s s' c h hc ht hpos htyp
    have hr : (Real.exp (-w.beta * energy w s'.pos s'.typ) * w.weight (toggle (some c))) /
        (Real.exp (-w.beta * energy w s.pos s.typ) * w.weight c) = sgRatio w s m c := by
      rw [C40_semigrand_ratio ok s m c hx, hpos, htyp, mul_sub, Real.exp_sub]
      have h1 := (Real.exp_pos (-w.beta * energy w s.pos s.typ)).ne'
      have h2 := (hwt c).ne'
      field_simp
    rw [hr, ← prob_metropolis]
    · refine prob_congr fun v _ _ => ?_
      rw [C39_semigrand ok h m v hc ht]
      cases metropolis (sgRatio w s m c) v
      · simp
      · simp only [if_true, iff_true]
        exact ⟨_, rfl, htyp.symm⟩
    · rw [← hr]
      have := hwt c
      have := hwt (toggle (some c))
      positivity
  rw [main s s' c h hc ht hpos htyp, main s' s (toggle (some c)) h' hc' (by
    intro a ha; rw [htyp]; simp only [typesOf, ha, if_true]) hpos.symm (by
    rw [toggle_toggle]; exact hback)]
  rw [toggle_toggle]
  unfold sgWeight
  have h1 := hwt c
  have h2 := hwt (toggle (some c))
  exact balance_min (by positivity) (by positivity)

end Verif.McMoves
