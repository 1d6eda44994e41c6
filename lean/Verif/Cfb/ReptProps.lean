/-
C70: reptation with configurational bias satisfies detailed balance for chains of equal atoms.
-/
import Verif.Cfb.ReptFlow

set_option autoImplicit false

namespace Verif.Cfb

open Verif.Boundary Verif.McCellList Verif.McCell Verif.McMoves MeasureTheory
open Verif.Cpp
open scoped ENNReal

variable {w : World} {lengths : Vec} {bravais : Fin 3 → Vec} {cutoff : ℝ}

/-- Configurations in which the bond of the end in the direction `sign` is shorter than `R` (and not
of length zero). -/
def EndShort (w : World) (c : Chain) (R : ℝ) (sign : ℤ) : Set Conf :=
  {q | 0 < lenOf w c sign (endId c sign) q ∧ lenOf w c sign (endId c sign) q < R}

/-- Probability that the move, with `m + 1` trials and for the deviate `e` that chooses the
direction, is accepted, leaves the masks as they were and leads to a configuration in `B`.  Only new
bonds shorter than `R` are counted. -/
noncomputable def reptProb (w : World) (c : Chain) (bonded : Bool) (m : ℕ) (R : ℝ)
    (law : ℕ → Measure ℝ) (B : Set Conf) (e : ℝ) (s : Sys) : ℝ≥0∞ :=
  ∫⁻ us : Fin m → Vec, ∫⁻ ℓ, ∫⁻ vs : Fin (m + 1) → Vec, (∫⁻ roll in Set.Ico (0 : ℝ) 1,
    prob fun v => ∃ s', reptate w c bonded e (List.ofFn us) (ℓ, List.ofFn vs, roll) v s =
      .ok (w, s', true) ∧ s'.pos ∈ B) ∂(Measure.pi fun _ => direction)
    ∂((law (c.bondType (bondId (signOf e) (endId c (signOf e))))).restrict (Set.Iio R))
    ∂(Measure.pi fun _ => direction)

/-- Flow from `A` to `B` for given `e`: integral over the positions of the atoms of the chain. -/
noncomputable def reptFlow (w : World) (c : Chain) (bonded : Bool) (m : ℕ) (R : ℝ)
    (law : ℕ → Measure ℝ) (st : Conf → Sys) (A B : Set Conf) (e : ℝ) (p : Conf) : ℝ≥0∞ :=
  sweep (cell w.gen) (chainAtoms c) (fun q =>
    A.indicator 1 q * boltzmannWeight w (st q) * reptProb w c bonded m R law B e (st q)) p

theorem uniform_junctions {c : Chain} (hu : Uniform c) : junctions c = [] := by
  unfold junctions
  rw [List.filter_eq_nil_iff]
  intro i hi
  obtain ⟨k, hk, rfl⟩ := mem_ids.1 hi
  have := hu.two
  simp only [decide_eq_true_eq, not_not]
  exact hu.atoms _ _ ⟨by omega, by omega⟩ ⟨by omega, by omega⟩

/-- **C70 (the move).**  Whatever the random numbers are, the move completes if the bond of the tail
is shorter than `R`: the masks are restored, the cell list fits the positions, types are kept, all
other molecules stay where they are; after a rejected move so does the chain, and after an accepted
move every atom but the head is at the old position of the next one. -/
theorem C70_move (ok : w.OK lengths bravais cutoff) {c : Chain} {R : ℝ} (hc : c.OK w bravais R)
    (hcap : w.atoms.card < w.cellCap) (h2 : 2 ≤ c.nAtom) {bonded : Bool} (hm : Masks w c bonded)
    {k : ℕ} (hk : 0 < k) {e : ℝ} {s : Sys} (h : At w lengths cutoff s.cells s.pos)
    (ht : ∀ j, Site c j → s.typ (c.atom j) = c.atomType j)
    (hs : s.pos ∈ EndShort w c R (-signOf e)) {us : List Vec} (hu : ∀ u ∈ us, normSq u = 1)
    {g : ℝ × List Vec × ℝ} (hg : Draw R k g) (v : ℝ) :
    ∃ s' acc, reptate w c bonded e us g v s = .ok (w, s', acc) ∧
      At w lengths cutoff s'.cells s'.pos ∧ s'.typ = s.typ ∧
      (∀ b, (∀ j, Site c j → b ≠ c.atom j) → s'.pos b = s.pos b) ∧
      (acc = false → s'.pos = s.pos) ∧
      (acc = true → ∀ j, Site c j → j ≠ endId c (signOf e) →
        s'.pos (c.atom j) = s.pos (c.atom (j + signOf e))) ∧
      s'.nAttempt = s.nAttempt + 1 ∧ s'.nAccept = s.nAccept + (if acc = true then 1 else 0) := by
  have hsg := signOf_cases e
  obtain ⟨⟨z, Wf⟩, hz⟩ : ∃ r, r = headGrown w bravais c (headType c (signOf e) s.typ) (signOf e) g s.pos :=
    ⟨_, rfl⟩
  obtain ⟨f, s', -, -, -, e1, e2, e3, e4, e5, e6⟩ := reptate_ok ok hc hcap h2 hm hk h ht hs.1 hs.2 hu hg v hz rfl
  have hoff : ∀ b, b ≠ c.atom (endId c (-signOf e)) → z b = s.pos b := by
    intro b hb
    have := growPure_off (w := slidWorld w c (signOf e)) (bravais := bravais) (moved c (signOf e))
      (headType c (signOf e) s.typ) (signOf e) [endId c (signOf e)] [g] s.pos b (by
        simp only [List.map_cons, List.map_nil, List.mem_singleton, moved_atom]
        unfold nextSite
        rw [if_pos rfl]
        exact hb)
    have hz' := congrArg Prod.fst hz
    unfold headGrown at hz'
    rw [← hz'] at this
    exact this
  refine ⟨s', _, e1, e2, e4, fun b hb => ?_, fun hr => ?_, fun hr j hj hne => ?_, e5, e6⟩
  · rw [e3]
    split
    · change z (slidLabel c (signOf e) b) = _
      rw [slidLabel_other hb]
      exact hoff b (hb _ (endId_site h2 (neg_cases hsg)).1)
    · rfl
  · rw [e3, if_neg (by rw [hr]; simp)]
  · rw [e3, if_pos hr]
    rw [slidLabel_atom hc hj]
    unfold nextSite
    rw [if_neg hne]
    refine hoff _ fun he => ?_
    have hn : Site c (j + signOf e) := by
      have := nextSite_site h2 hsg hj
      unfold nextSite at this
      rwa [if_neg hne] at this
    have := hc.inj _ _ hn (endId_site h2 (neg_cases hsg)).1 he
    unfold Site endId at *
    rcases hsg with h | h <;> rw [h] at this <;> simp at this <;> omega

/-- **C70 (acceptance).**  The ratio in the rule of Metropolis is the ratio of the Rosenbluth weights of
the new head and of the tail, times the Boltzmann factor for the change of the energy of the remaining
atoms when their types are shifted by one atom. -/
theorem C70_factor (ok : w.OK lengths bravais cutoff) {c : Chain} {R : ℝ} (hc : c.OK w bravais R)
    (hcap : w.atoms.card < w.cellCap) (h2 : 2 ≤ c.nAtom) {bonded : Bool} (hm : Masks w c bonded)
    {k : ℕ} (hk : 0 < k) {e : ℝ} {s : Sys} (h : At w lengths cutoff s.cells s.pos)
    (ht : ∀ j, Site c j → s.typ (c.atom j) = c.atomType j)
    (hs : s.pos ∈ EndShort w c R (-signOf e)) {us : List Vec} (hu : ∀ u ∈ us, normSq u = 1)
    {g : ℝ × List Vec × ℝ} (hg : Draw R k g) (v : ℝ) {t' : ℕ → ℕ} (ht' : Shifts c (signOf e) s.typ t') :
    ∃ s', reptate w c bonded e us g v s = .ok (w, s', metropolis (Real.exp (-w.beta *
      (restOf w (c.atom (endId c (-signOf e))) s.pos t' -
        restOf w (c.atom (endId c (-signOf e))) s.pos s.typ)) *
      (headGrown w bravais c (headType c (signOf e) s.typ) (signOf e) g s.pos).2 /
      tailW w bravais c s.typ (signOf e) s.pos us) v) := by
  obtain ⟨f, s', -, -, e0, e1, -⟩ := reptate_ok ok hc hcap h2 hm hk h ht hs.1 hs.2 hu hg v
    (z := (headGrown w bravais c (headType c (signOf e) s.typ) (signOf e) g s.pos).1) rfl rfl
  rw [e0 t' ht'] at e1
  exact ⟨s', e1⟩

/-- The probability of the move in terms of the growth of the new head. -/
theorem reptProb_grow (ok : w.OK lengths bravais cutoff) {c : Chain} {R : ℝ} (hc : c.OK w bravais R)
    (hcap : w.atoms.card < w.cellCap) (h2 : 2 ≤ c.nAtom) {bonded : Bool} (hm : Masks w c bonded)
    {m : ℕ} {e : ℝ} {law : ℕ → Measure ℝ} {cst : ℕ → ℝ≥0∞}
    (hlaw : ∀ i, LengthLaw w.beta (fun x => c.bondE x (c.bondType i)) R (law (c.bondType i))
      (cst (c.bondType i))) {s : Sys} (h : At w lengths cutoff s.cells s.pos)
    (ht : ∀ j, Site c j → s.typ (c.atom j) = c.atomType j)
    (hshort : s.pos ∈ EndShort w c R (-signOf e)) (hbl : Blind w c (signOf e)) (B : Set Conf)
    (κ : ℕ → ℝ≥0∞) :
    reptProb w c bonded m R law B e s = ∫⁻ us : Fin m → Vec,
      grow (reduce w.gen bravais) direction m
        [headStep w c (headType c (signOf e) s.typ) R law κ (signOf e)] s.pos (fun z Wf =>
        B.indicator 1 (slid c (signOf e) z) * ENNReal.ofReal (min 1 (Wf /
          wt (reduce w.gen bravais) m (endStep w c s.typ R law κ (-signOf e)) s.pos us)))
      ∂(Measure.pi fun _ => direction) := by
  unfold reptProb
  refine lintegral_congr_ae ?_
  filter_upwards [pi_unit direction_unit m] with us hus
  obtain ⟨Wr, hWr⟩ : ∃ W, W = wt (reduce w.gen bravais) m
    (endStep w c s.typ R law κ (-signOf e)) s.pos us := ⟨_, rfl⟩
  have hWr0 : 0 < Wr := by
    rw [hWr]
    exact add_pos_of_pos_of_nonneg (Real.exp_pos _) (Finset.sum_nonneg fun _ _ => (Real.exp_pos _).le)
  have hWr' : Wr = tailW w bravais c s.typ (signOf e) s.pos (List.ofFn us) := by
    rw [hWr]
    exact (delWt_ofFn (R := R) (law := law) (κ := κ) _ _ _).symm
  rw [← hWr]
  have hg := expGrow_growPure (w := slidWorld w c (signOf e)) (bravais := bravais)
    (c := moved c (signOf e)) (t := headType c (signOf e) s.typ) (sign := signOf e) (R := R) (law := law) (κ := κ)
    direction m [endId c (signOf e)] s.pos (fun z Wf => B.indicator 1 (slid c (signOf e) z) *
        ENNReal.ofReal (min 1 (Wf / Wr)))
  refine Eq.trans ?_ hg
  change expGrow direction (m + 1)
    [(law (c.bondType (bondId (signOf e) (endId c (signOf e))))).restrict (Set.Iio R)]
    (fun gs => prob fun v => ∃ s', reptate w c bonded e (List.ofFn us) (gs.headD (0, [], 0)) v s =
      .ok (w, s', true) ∧ s'.pos ∈ B) = _
  refine expGrow_congr (R := R) direction_unit ?_ fun gs hgl hgd => ?_
  · intro ρ hρ
    rw [List.mem_singleton.1 hρ]
    exact law_range (hlaw _)
  · obtain ⟨g, rfl⟩ := List.length_eq_one_iff.1 hgl
    obtain ⟨⟨z, Wf⟩, hz⟩ : ∃ r, r = headGrown w bravais c (headType c (signOf e) s.typ) (signOf e) g
      s.pos := ⟨_, rfl⟩
    have hz2 := hz
    unfold headGrown at hz2
    have hWf : 0 < Wf := by
      have := growPure_pos (w := slidWorld w c (signOf e)) (bravais := bravais)
        (c := moved c (signOf e)) (t := headType c (signOf e) s.typ) (sign := signOf e)
        (Nat.succ_pos m) [endId c (signOf e)] [g] s.pos hgd
      rw [← hz2] at this
      exact this
    rw [← hz2]
    simp only [List.headD_cons]
    by_cases hzB : slid c (signOf e) z ∈ B
    · rw [Set.indicator_of_mem hzB, Pi.one_apply, one_mul, ← prob_metropolis (div_pos hWf hWr0).le]
      refine prob_congr fun v _ _ => ?_
      obtain ⟨f, s', -, f0, -, f1, -, f3, -⟩ := reptate_ok ok hc hcap h2 hm (Nat.succ_pos m) h ht
        hshort.1 hshort.2 hus (hgd g (by simp)) v hz hWr'
      rw [f0 hbl, one_mul] at f1 f3
      rw [f1]
      constructor
      · rintro ⟨s'', g1, -⟩
        exact congrArg (fun x => x.2.2) (Out.ok.inj g1)
      · intro hmet
        refine ⟨s', by rw [hmet], ?_⟩
        rw [f3, if_pos hmet]
        exact hzB
    · rw [Set.indicator_of_notMem hzB, zero_mul, ← prob_false]
      refine prob_congr fun v _ _ => ?_
      obtain ⟨f, s', -, f0, -, f1, -, f3, -⟩ := reptate_ok ok hc hcap h2 hm (Nat.succ_pos m) h ht
        hshort.1 hshort.2 hus (hgd g (by simp)) v hz hWr'
      rw [f0 hbl, one_mul] at f1 f3
      rw [f1]
      refine iff_false_intro ?_
      rintro ⟨s'', g1, g2⟩
      have e1 := congrArg (fun x => x.2.1) (Out.ok.inj g1)
      have e2 := congrArg (fun x => x.2.2) (Out.ok.inj g1)
      dsimp only at e1 e2
      rw [← e1, f3, if_pos e2] at g2
      exact hzB g2

set_option maxHeartbeats 1000000 in
/-- The probability of the move in terms of the ends of the chain. -/
theorem reptProb_eq (ok : w.OK lengths bravais cutoff) {c : Chain} {R : ℝ} (hc : c.OK w bravais R)
    (hmeas : Meas w c) (hcap : w.atoms.card < w.cellCap) (huc : Uniform c) {bonded : Bool}
    (hm : Masks w c bonded) {m : ℕ} {e : ℝ} {law : ℕ → Measure ℝ} {cst : ℕ → ℝ≥0∞}
    (hlaw : ∀ i, LengthLaw w.beta (fun x => c.bondE x (c.bondType i)) R (law (c.bondType i))
      (cst (c.bondType i))) {s : Sys} (h : At w lengths cutoff s.cells s.pos)
    (ht : ∀ j, Site c j → s.typ (c.atom j) = c.atomType j)
    (hshort : s.pos ∈ EndShort w c R (-signOf e)) {B : Set Conf} (hB : MeasurableSet B)
    {E : ℤ → Step} (hE : E = endStep w c s.typ R law (fun x => cst x * (area Set.univ)⁻¹)) :
    reptProb w c bonded m R law B e s = ∫⁻ x in cell w.gen,
      B.indicator 1 (slid c (signOf e) (Function.update s.pos (c.atom (endId c (-signOf e))) x)) *
      product m [E (signOf e)] (slid c (signOf e)
        (Function.update s.pos (c.atom (endId c (-signOf e))) x)) *
      accAvg w bravais m (E (-signOf e)) (E (signOf e)) s.pos (slid c (signOf e)
        (Function.update s.pos (c.atom (endId c (-signOf e))) x)) := by
  have hsg := signOf_cases e
  have h2 := huc.two
  obtain ⟨sign, hsign⟩ : ∃ sign, sign = signOf e := ⟨_, rfl⟩
  have hhd := endId_site h2 hsg
  obtain ⟨κ, hκ⟩ : ∃ κ : ℕ → ℝ≥0∞, κ = fun x => cst x * (area Set.univ)⁻¹ := ⟨_, rfl⟩
  rw [← hκ] at hE
  have hred : Measurable (reduce w.gen bravais) := reduce_measurable ok.geo
  have htyp : headType c (signOf e) s.typ = s.typ := by
    unfold headType
    rw [ht _ hhd.1, huc.atoms _ _ hhd.1 (endId_site h2 (neg_cases hsg)).1,
      ← ht _ (endId_site h2 (neg_cases hsg)).1, Function.update_eq_self]
  obtain ⟨S, hS⟩ : ∃ S, S = headStep w c s.typ R law κ (signOf e) := ⟨_, rfl⟩
  have hSok : S.OK (cell w.gen) (reduce w.gen bravais) direction := by
    rw [hS, hκ]
    exact step_ok (w := slidWorld w c (signOf e)) (c := moved c (signOf e)) (slidWorld_ok ok)
      (moved_ok h2 hc hsg) ⟨hmeas.pair, hmeas.dsq, hmeas.ext, hmeas.dvec, hmeas.bondE, hmeas.angleE⟩
      hsg (hlaw _) hhd.1 hhd.2
  have hEok : ∀ sg, (sg = 1 ∨ sg = -1) → (E sg).OK (cell w.gen) (reduce w.gen bravais) direction := by
    intro sg hsg'
    rw [hE, hκ]
    exact step_ok ok hc hmeas hsg' (hlaw _) (endId_site h2 hsg').1 (endId_site h2 hsg').2
  have hSa : S.a = c.atom (endId c (-signOf e)) := by
    rw [hS]
    change (moved c (signOf e)).atom (endId c (signOf e)) = _
    rw [moved_atom]
    unfold nextSite
    rw [if_pos rfl]
  have hSb : s.pos S.b ∈ cell w.gen := by
    rw [hS]
    change s.pos ((moved c (signOf e)).atom (endId c (signOf e) - signOf e)) ∈ _
    rw [moved_atom]
    exact h.unit (hc.mem _ (nextSite_site h2 hsg hhd.2))
  have step1 := reptProb_grow (m := m) ok hc hcap h2 hm hlaw h ht hshort
    (blind_nil (uniform_junctions huc)) B κ
  rw [htyp, ← hS, ← hE] at step1
  rw [step1]
  obtain ⟨μ, hμ⟩ : ∃ μ : Measure (Fin m → Vec), μ = Measure.pi fun _ => direction := ⟨_, rfl⟩
  have hμs : SFinite μ := by rw [hμ]; infer_instance
  obtain ⟨y, hy⟩ : ∃ y : Vec → Conf, y = fun x =>
    slid c (signOf e) (Function.update s.pos (c.atom (endId c (-signOf e))) x) := ⟨_, rfl⟩
  have hym : Measurable y := by
    rw [hy]
    exact slid_measurable.comp ((update_measurable _).comp (measurable_const.prodMk measurable_id))
  obtain ⟨acc, hacc⟩ : ∃ acc : Conf → (Fin m → Vec) → (Fin m → Vec) → ℝ≥0∞, acc = fun y us us' =>
    ENNReal.ofReal (min 1 (wt (reduce w.gen bravais) m (E (signOf e)) y us' /
      wt (reduce w.gen bravais) m (E (-signOf e)) s.pos us)) /
      ENNReal.ofReal (wt (reduce w.gen bravais) m (E (signOf e)) y us') := ⟨_, rfl⟩
  have haccm : Measurable fun x : (Conf × (Fin m → Vec)) × (Fin m → Vec) => acc x.1.1 x.1.2 x.2 := by
    rw [hacc]
    have h1 := acc_measurable (m := m) (hEok _ (neg_cases hsg)) (hEok _ hsg) hred
    have h3 : Measurable fun x : (Conf × (Fin m → Vec)) × (Fin m → Vec) => ((s.pos, x.1.1), x.1.2) :=
      (measurable_const.prodMk (measurable_fst.comp measurable_fst)).prodMk
        (measurable_snd.comp measurable_fst)
    exact h1.comp (h3.prodMk measurable_snd)
  have hpm : Measurable (product m [E (signOf e)]) := product_measurable (C := cell w.gen)
    (red := reduce w.gen bravais) (σ := direction) (by simpa using hEok _ hsg)
  have hBm : Measurable (B.indicator (1 : Conf → ℝ≥0∞)) := measurable_one.indicator hB
  have hBP : Measurable fun x => B.indicator (1 : Conf → ℝ≥0∞) (y x) * product m [E (signOf e)] (y x) :=
    (hBm.comp hym).mul (hpm.comp hym)
  have hin : ∀ z : Conf, Measurable (Function.uncurry (acc z)) := fun z =>
    haccm.comp ((measurable_const.prodMk measurable_fst).prodMk measurable_snd)
  have hinn : Measurable fun xu : Vec × (Fin m → Vec) => ∫⁻ us', acc (y xu.1) xu.2 us' ∂μ := by
    have h1 : Measurable fun a : (Vec × (Fin m → Vec)) × (Fin m → Vec) =>
        acc (y a.1.1) a.1.2 a.2 :=
      haccm.comp ((((hym.comp (measurable_fst.comp measurable_fst)).prodMk
        (measurable_snd.comp measurable_fst))).prodMk measurable_snd)
    exact h1.lintegral_prod_right'
  have step2 : ∀ us : Fin m → Vec, grow (reduce w.gen bravais) direction m [S] s.pos (fun z Wf =>
        B.indicator 1 (slid c (signOf e) z) *
          ENNReal.ofReal (min 1 (Wf / wt (reduce w.gen bravais) m (E (-signOf e)) s.pos us))) =
      ∫⁻ x in cell w.gen, B.indicator (1 : Conf → ℝ≥0∞) (y x) * product m [E (signOf e)] (y x) *
        ∫⁻ us', acc (y x) us us' ∂μ := by
    intro us
    obtain ⟨Wr, hWr⟩ : ∃ W, W = wt (reduce w.gen bravais) m (E (-signOf e)) s.pos us := ⟨_, rfl⟩
    have hH : Measurable (Function.uncurry fun (x : Vec) (W : ℝ) =>
        B.indicator (1 : Conf → ℝ≥0∞) (y x) * ENNReal.ofReal (min 1 (W / Wr))) :=
      ((hBm.comp hym).comp measurable_fst).mul (ENNReal.measurable_ofReal.comp
        (measurable_const.min (measurable_snd.div measurable_const)))
    have h1 := one_step (m := m) hSok hred (cell_measurable ok.geo) hSb hH
    simp only [grow, mul_one]
    rw [hSa] at h1 ⊢
    rw [← hWr]
    rw [hy] at h1 ⊢
    refine Eq.trans h1 (lintegral_congr fun x => ?_)
    obtain ⟨q1, q2, q3⟩ := headStep_slid (law := law) (κ := κ) hc huc hsg ht
      (Function.update s.pos (c.atom (endId c (-signOf e))) x)
    rw [← hS, ← hE] at q1 q2 q3
    simp only [q1, q2, q3]
    simp only [product, List.map_cons, List.map_nil, List.prod_cons, List.prod_nil, mul_one]
    rw [← hμ]
    obtain ⟨z, hz⟩ : ∃ z, z = slid c (signOf e)
      (Function.update s.pos (c.atom (endId c (-signOf e))) x) := ⟨_, rfl⟩
    rw [← hz]
    have h3 : ∀ us', B.indicator (1 : Conf → ℝ≥0∞) z * ENNReal.ofReal (min 1
        (wt (reduce w.gen bravais) m (E (signOf e)) z us' / Wr)) /
        ENNReal.ofReal (wt (reduce w.gen bravais) m (E (signOf e)) z us') =
        B.indicator (1 : Conf → ℝ≥0∞) z * acc z us us' := fun us' => by
      rw [hacc, hWr, mul_div_assoc]
    simp only [h3]
    have h4 : Measurable fun us' => acc z us us' :=
      (hin z).comp (measurable_const.prodMk measurable_id)
    rw [lintegral_const_mul _ h4]
    ring
  simp only [step2]
  rw [← hμ, lintegral_lintegral_swap]
  · refine lintegral_congr fun x => ?_
    have h4 : Measurable fun us => ∫⁻ us', acc (y x) us us' ∂μ :=
      hinn.comp (measurable_const.prodMk measurable_id)
    rw [lintegral_const_mul _ h4]
    unfold accAvg
    rw [← hμ, hy, hacc]
  · exact ((hBP.comp measurable_snd).mul (hinn.comp measurable_swap)).aemeasurable

/-- The flow for given direction in terms of the ends of the chain. -/
theorem reptFlow_eq (ok : w.OK lengths bravais cutoff) {c : Chain} {R : ℝ} (hc : c.OK w bravais R)
    (hmeas : Meas w c) (hcap : w.atoms.card < w.cellCap) (huc : Uniform c) {bonded : Bool}
    (hm : Masks w c bonded) {m : ℕ} {e : ℝ} {law : ℕ → Measure ℝ} {cst : ℕ → ℝ≥0∞}
    (hlaw : ∀ i, LengthLaw w.beta (fun x => c.bondE x (c.bondType i)) R (law (c.bondType i))
      (cst (c.bondType i))) {t : ℕ → ℕ} (ht : ∀ j, Site c j → t (c.atom j) = c.atomType j)
    {st : Conf → Sys} (hst : ∀ q, (∀ b ∈ w.atoms, q b ∈ cell w.gen) →
      (st q).pos = q ∧ (st q).typ = t ∧ At w lengths cutoff (st q).cells q)
    {p : Conf} (hp : ∀ b ∈ w.atoms, p b ∈ cell w.gen) {A B : Set Conf} (hB : MeasurableSet B)
    (hAs : A ⊆ EndShort w c R (-signOf e)) {E : ℤ → Step}
    (hE : E = endStep w c t R law (fun x => cst x * (area Set.univ)⁻¹)) {U : Conf → ℝ}
    (hU : ∀ q, Off (chainAtoms c) p q → energy w q t = U q) :
    reptFlow w c bonded m R law st A B e p = sweep (cell w.gen) (chainAtoms c) (fun q =>
      ∫⁻ x in cell w.gen, density w bravais m E c
        (fun q => ENNReal.ofReal (Real.exp (-w.beta * U q))) A B (signOf e) q
        (Function.update q (c.atom (endId c (-signOf e))) x)) p := by
  unfold reptFlow
  refine sweep_congr (cell_measurable ok.geo) fun q h1 h2 => ?_
  unfold density
  by_cases hq : q ∈ A
  swap
  · rw [Set.indicator_of_notMem hq]
    simp
  have hin : ∀ b ∈ w.atoms, q b ∈ cell w.gen := by
    intro b hb
    by_cases hbm : b ∈ chainAtoms c
    · exact h2 b hbm
    · rw [h1 b hbm]; exact hp b hb
  obtain ⟨g1, g2, g3⟩ := hst q hin
  have g4 := reptProb_eq (m := m) ok hc hmeas hcap huc hm hlaw (s := st q) (by rw [g1]; exact g3)
    (by rw [g2]; exact ht) (by rw [g1]; exact hAs hq) hB (E := E) (by rw [g2]; exact hE)
  rw [g1] at g4
  rw [g4, Set.indicator_of_mem hq, Pi.one_apply, one_mul]
  unfold boltzmannWeight
  rw [g1, g2, hU q h1]
  simp only [one_mul]
  exact (lintegral_const_mul' _ _ ENNReal.ofReal_ne_top).symm

/-- **C70 (one direction).**  The flow of moves in one direction from `A` to `B` equals the flow of
moves in the other direction from `B` to `A`. -/
theorem C70_reverse (ok : w.OK lengths bravais cutoff) {c : Chain} {R : ℝ} (hc : c.OK w bravais R)
    (hmeas : Meas w c) (hcap : w.atoms.card < w.cellCap) (huc : Uniform c)
    (hl : Linear w c (sites c)) {bonded : Bool} (hm : Masks w c bonded) (m : ℕ) {e e' : ℝ}
    (he : signOf e' = -signOf e) {law : ℕ → Measure ℝ} {cst : ℕ → ℝ≥0∞}
    (hlaw : ∀ i, LengthLaw w.beta (fun x => c.bondE x (c.bondType i)) R (law (c.bondType i))
      (cst (c.bondType i))) {t : ℕ → ℕ} (ht : ∀ j, Site c j → t (c.atom j) = c.atomType j)
    {st : Conf → Sys} (hst : ∀ q, (∀ b ∈ w.atoms, q b ∈ cell w.gen) →
      (st q).pos = q ∧ (st q).typ = t ∧ At w lengths cutoff (st q).cells q)
    {p : Conf} (hp : ∀ b ∈ w.atoms, p b ∈ cell w.gen) {A B : Set Conf} (hA : MeasurableSet A)
    (hB : MeasurableSet B) (hAs : A ⊆ EndShort w c R (-signOf e)) (hBs : B ⊆ EndShort w c R (signOf e)) :
    reptFlow w c bonded m R law st A B e p = reptFlow w c bonded m R law st B A e' p := by
  have hsg := signOf_cases e
  have h2 := huc.two
  obtain ⟨U, hUm, hU⟩ := energy_meas ok h2 hc hmeas hl t p
  obtain ⟨κ, hκ⟩ : ∃ κ : ℕ → ℝ≥0∞, κ = fun x => cst x * (area Set.univ)⁻¹ := ⟨_, rfl⟩
  have hEok : ∀ sg, (sg = 1 ∨ sg = -1) →
      (endStep w c t R law κ sg).OK (cell w.gen) (reduce w.gen bravais) direction := by
    intro sg hsg'
    rw [hκ]
    exact step_ok ok hc hmeas hsg' (hlaw _) (endId_site h2 hsg').1 (endId_site h2 hsg').2
  rw [reptFlow_eq ok hc hmeas hcap huc hm hlaw ht hst hp hB hAs (E := endStep w c t R law κ)
      (by rw [hκ]) hU,
    reptFlow_eq ok hc hmeas hcap huc hm hlaw ht hst hp hA (by rw [he, neg_neg]; exact hBs)
      (E := endStep w c t R law κ) (by rw [hκ]) hU, he, neg_neg]
  refine density_flow hc h2 hsg hEok (cell_measurable ok.geo) (reduce_measurable ok.geo) ?_ hA hB ?_
  · exact ENNReal.measurable_ofReal.comp (Real.measurable_exp.comp (measurable_const.mul hUm))
  · intro q z hq hz hqA hzB
    have hzo : Off (chainAtoms c) p (slid c (signOf e) z) := by
      intro b hb
      unfold slid
      rw [slidLabel_off hb, hz b fun h => hb ?_, hq b hb]
      rw [h]
      exact mem_chainAtoms.2 ⟨_, (endId_site h2 (neg_cases hsg)).1, rfl⟩
    rw [← hU q hq, ← hU _ hzo]
    exact product_slid ok hc huc hl hsg hm ht m hz (hAs hqA).2 (hBs hzB).2

/-- Flow from `A` to `B` of the whole move, whose direction is random. -/
noncomputable def reptation (w : World) (c : Chain) (bonded : Bool) (m : ℕ) (R : ℝ)
    (law : ℕ → Measure ℝ) (st : Conf → Sys) (A B : Set Conf) (p : Conf) : ℝ≥0∞ :=
  ∫⁻ e in Set.Ico (0 : ℝ) 1, reptFlow w c bonded m R law st A B e p

/-- **C70.**  Detailed balance of reptation with configurational bias: for chains whose atoms are of
one type and whose bonds are of one type, the flow from `A` to `B` equals the flow from `B` to `A`,
for any positions of the other molecules and all sets of configurations of the chain whose terminal
bonds are shorter than `R`. -/
theorem C70_balance_partial (ok : w.OK lengths bravais cutoff) {c : Chain} {R : ℝ}
    (hc : c.OK w bravais R) (hmeas : Meas w c) (hcap : w.atoms.card < w.cellCap) (huc : Uniform c)
    (hl : Linear w c (sites c)) {bonded : Bool} (hm : Masks w c bonded) (m : ℕ)
    {law : ℕ → Measure ℝ} {cst : ℕ → ℝ≥0∞}
    (hlaw : ∀ i, LengthLaw w.beta (fun x => c.bondE x (c.bondType i)) R (law (c.bondType i))
      (cst (c.bondType i))) {t : ℕ → ℕ} (ht : ∀ j, Site c j → t (c.atom j) = c.atomType j)
    {st : Conf → Sys} (hst : ∀ q, (∀ b ∈ w.atoms, q b ∈ cell w.gen) →
      (st q).pos = q ∧ (st q).typ = t ∧ At w lengths cutoff (st q).cells q)
    {p : Conf} (hp : ∀ b ∈ w.atoms, p b ∈ cell w.gen) {A B : Set Conf} (hA : MeasurableSet A)
    (hB : MeasurableSet B) (hAs : A ⊆ EndShort w c R 1 ∩ EndShort w c R (-1))
    (hBs : B ⊆ EndShort w c R 1 ∩ EndShort w c R (-1)) :
    reptation w c bonded m R law st A B p = reptation w c bonded m R law st B A p := by
  have h1 : signOf 1 = 1 := by unfold signOf; rw [if_pos (by norm_num)]
  have h0 : signOf 0 = -1 := by unfold signOf; rw [if_neg (by norm_num)]
  have hpos : ∀ e : ℝ, 1 / 2 < e → signOf e = signOf 1 := fun e he => by
    rw [h1]; unfold signOf; rw [if_pos he]
  have hneg : ∀ e : ℝ, e ≤ 1 / 2 → signOf e = signOf 0 := fun e he => by
    rw [h0]; unfold signOf; rw [if_neg (not_lt.2 he)]
  have hsub : ∀ e, EndShort w c R 1 ∩ EndShort w c R (-1) ⊆ EndShort w c R (signOf e) ∧
      EndShort w c R 1 ∩ EndShort w c R (-1) ⊆ EndShort w c R (-signOf e) := by
    intro e
    rcases signOf_cases e with h | h <;> rw [h]
    · exact ⟨Set.inter_subset_left, Set.inter_subset_right⟩
    · rw [neg_neg]
      exact ⟨Set.inter_subset_right, Set.inter_subset_left⟩
  have key : ∀ A B : Set Conf, MeasurableSet A → MeasurableSet B →
      A ⊆ EndShort w c R 1 ∩ EndShort w c R (-1) → B ⊆ EndShort w c R 1 ∩ EndShort w c R (-1) →
      reptation w c bonded m R law st A B p =
        reptFlow w c bonded m R law st A B 1 p * ENNReal.ofReal (1 / 2) +
        reptFlow w c bonded m R law st A B 0 p * ENNReal.ofReal (1 / 2) := by
    intro A B hA hB hAs hBs
    have hback : ∀ e e' : ℝ, signOf e' = -signOf e →
        reptFlow w c bonded m R law st A B e p = reptFlow w c bonded m R law st B A e' p :=
      fun e e' h => C70_reverse ok hc hmeas hcap huc hl hm m h hlaw ht hst hp hA hB
        (hAs.trans (hsub e).2) (hBs.trans (hsub e).1)
    have hu : ∀ e : ℝ, 1 / 2 < e → reptFlow w c bonded m R law st A B e p =
        reptFlow w c bonded m R law st A B 1 p := fun e he => by
      rw [hback e 0 (by rw [hpos e he, h1, h0]), hback 1 0 (by rw [h1, h0])]
    have hd : ∀ e : ℝ, e ≤ 1 / 2 → reptFlow w c bonded m R law st A B e p =
        reptFlow w c bonded m R law st A B 0 p := fun e he => by
      rw [hback e 1 (by rw [hneg e he, h1, h0]; norm_num), hback 0 1 (by rw [h1, h0]; norm_num)]
    unfold reptation
    have hsplit : Set.Ico (0 : ℝ) 1 = Set.Icc 0 (1 / 2) ∪ Set.Ioo (1 / 2) 1 := by
      ext x
      simp only [Set.mem_Ico, Set.mem_union, Set.mem_Icc, Set.mem_Ioo]
      constructor
      · rintro ⟨a, b⟩
        rcases le_or_gt x (1 / 2) with h | h
        · exact Or.inl ⟨a, h⟩
        · exact Or.inr ⟨h, b⟩
      · rintro (⟨a, b⟩ | ⟨a, b⟩)
        · exact ⟨a, by linarith⟩
        · exact ⟨by linarith, b⟩
    rw [hsplit, lintegral_union measurableSet_Ioo (by
        rw [Set.disjoint_left]
        rintro x ⟨_, a⟩ ⟨b, _⟩
        linarith),
      setLIntegral_congr_fun measurableSet_Icc (fun e he => hd e he.2),
      setLIntegral_congr_fun measurableSet_Ioo (fun e he => hu e he.1), setLIntegral_const,
      setLIntegral_const, Real.volume_Icc, Real.volume_Ioo, add_comm]
    norm_num
  rw [key A B hA hB hAs hBs, key B A hB hA hBs hAs,
    C70_reverse ok hc hmeas hcap huc hl hm m (e := 1) (e' := 0) (by rw [h1, h0]) hlaw ht hst hp hA hB
      (hAs.trans (hsub 1).2) (hBs.trans (hsub 1).1),
    C70_reverse ok hc hmeas hcap huc hl hm m (e := 0) (e' := 1) (by rw [h1, h0]; norm_num) hlaw ht hst
      hp hA hB (hAs.trans (hsub 0).2) (hBs.trans (hsub 0).1), add_comm]

end Verif.Cfb
