/-
Flows of reptation: integrals over the positions of a chain under a permutation of its atoms, and
the symmetry of the flow forwards and backwards.
-/
import Verif.Cfb.ReptEnergy
import Verif.Cfb.Props

set_option autoImplicit false

namespace Verif.Cfb

open Verif.Boundary Verif.McCellList Verif.McCell Verif.McMoves MeasureTheory
open Verif.Cpp
open scoped ENNReal

/-! ### Integrals over permuted positions -/

section Perm

variable {C : Set Vec}

theorem sweep_meas (l : List ℕ) {G : Conf → ℝ≥0∞} (hG : Measurable G) :
    Measurable (sweep C l G) := by
  have := sweep_measurable (C := C) l (G := fun (_ : Unit) => G) (hG.comp measurable_snd)
  exact this.comp (measurable_const (a := ()) |>.prodMk measurable_id)

/-- The order of the atoms does not matter. -/
theorem sweep_perm {l l' : List ℕ} (h : l.Perm l') (hn : l.Nodup) {G : Conf → ℝ≥0∞}
    (hG : Measurable G) (p : Conf) : sweep C l G p = sweep C l' G p := by
  induction h generalizing p with
  | nil => rfl
  | cons a h ih =>
    unfold sweep
    exact lintegral_congr fun x => ih (List.nodup_cons.1 hn).2 _
  | swap a b l =>
    have hab : b ≠ a := fun h => (List.nodup_cons.1 hn).1 (by simp [h])
    change ∫⁻ x in C, ∫⁻ y in C, sweep C l G (Function.update (Function.update p b x) a y) =
      ∫⁻ y in C, ∫⁻ x in C, sweep C l G (Function.update (Function.update p a y) b x)
    rw [lintegral_lintegral_swap]
    · refine lintegral_congr fun y => lintegral_congr fun x => ?_
      rw [Function.update_comm hab]
    · have h1 : Measurable fun xy : Vec × Vec => Function.update p b xy.1 :=
        (update_measurable b).comp (measurable_const.prodMk measurable_fst)
      exact ((sweep_meas l hG).comp ((update_measurable a).comp
        (h1.prodMk measurable_snd))).aemeasurable
  | trans h1 h2 ih1 ih2 => rw [ih1 hn, ih2 (h1.nodup_iff.1 hn)]

theorem sweep_last (l : List ℕ) (a : ℕ) (G : Conf → ℝ≥0∞) (p : Conf) :
    sweep C (l ++ [a]) G p = sweep C l (fun q => ∫⁻ x in C, G (Function.update q a x)) p := by
  induction l generalizing p with
  | nil => rfl
  | cons b l ih =>
    change ∫⁻ x in C, sweep C (l ++ [a]) G _ = ∫⁻ x in C, sweep C l _ _
    exact lintegral_congr fun x => ih _

theorem relabel_update {σ σ' : ℕ → ℕ} (h1 : ∀ b, σ (σ' b) = b) (h2 : ∀ b, σ' (σ b) = b) (p : Conf)
    (a : ℕ) (x : Vec) : (fun b => Function.update p a x (σ b)) =
      Function.update (fun b => p (σ b)) (σ' a) x := by
  funext b
  by_cases hb : b = σ' a
  · rw [hb, h1, Function.update_self, Function.update_self]
  · rw [Function.update_of_ne hb, Function.update_of_ne]
    intro h
    exact hb (by rw [← h, h2])

/-- Integrals do not change if the integrated atoms are permuted. -/
theorem sweep_relabel {σ σ' : ℕ → ℕ} (h1 : ∀ b, σ (σ' b) = b) (h2 : ∀ b, σ' (σ b) = b) {l : List ℕ}
    (hn : l.Nodup) (hl : ∀ a ∈ l, σ' a ∈ l) (ho : ∀ b, b ∉ l → σ b = b) {G : Conf → ℝ≥0∞}
    (hG : Measurable G) (p : Conf) : sweep C l (fun q => G fun b => q (σ b)) p = sweep C l G p := by
  have key : ∀ (l : List ℕ) (p : Conf), sweep C l (fun q => G fun b => q (σ b)) p =
      sweep C (l.map σ') G (fun b => p (σ b)) := by
    intro l
    induction l with
    | nil => intro p; rfl
    | cons a l ih =>
      intro p
      change ∫⁻ x in C, sweep C l _ (Function.update p a x) =
        ∫⁻ x in C, sweep C (l.map σ') G (Function.update (fun b => p (σ b)) (σ' a) x)
      refine lintegral_congr fun x => ?_
      rw [ih, relabel_update h1 h2]
  have hinj : Function.Injective σ' := fun a b h => by rw [← h1 a, h, h1]
  have hn' : (l.map σ').Nodup := hn.map hinj
  have hperm : (l.map σ').Perm l := by
    refine (List.subperm_of_subset hn' ?_).perm_of_length_le (by simp)
    intro a ha
    obtain ⟨b, hb, rfl⟩ := List.mem_map.1 ha
    exact hl b hb
  rw [key, sweep_perm hperm hn' hG]
  exact sweep_off fun b hb => by rw [ho b hb]

/-- One atom is moved: integrals over its old and new positions can be exchanged. -/
theorem sweep_exchange {l : List ℕ} (hn : l.Nodup) {a : ℕ} (ha : a ∈ l) {F : Conf → Conf → ℝ≥0∞}
    (hF : Measurable (Function.uncurry F)) (p : Conf) :
    sweep C l (fun q => ∫⁻ x in C, F q (Function.update q a x)) p =
      sweep C l (fun q => ∫⁻ x in C, F (Function.update q a x) q) p := by
  have hp : l.Perm (l.erase a ++ [a]) :=
    (List.perm_cons_erase ha).trans (List.perm_append_singleton a _).symm
  have hu := update_measurable a
  have hm1 : Measurable fun q : Conf => ∫⁻ x in C, F q (Function.update q a x) := by
    have : Measurable fun y : Conf × Vec => F y.1 (Function.update y.1 a y.2) :=
      hF.comp (measurable_fst.prodMk hu)
    exact this.lintegral_prod_right'
  have hm2 : Measurable fun q : Conf => ∫⁻ x in C, F (Function.update q a x) q := by
    have : Measurable fun y : Conf × Vec => F (Function.update y.1 a y.2) y.1 :=
      hF.comp (hu.prodMk measurable_fst)
    exact this.lintegral_prod_right'
  rw [sweep_perm hp hn hm1, sweep_perm hp hn hm2, sweep_last, sweep_last]
  congr 1
  funext q
  simp only [Function.update_idem]
  refine lintegral_lintegral_swap ?_
  have h1 : Measurable fun xy : Vec × Vec => Function.update q a xy.1 :=
    hu.comp (measurable_const.prodMk measurable_fst)
  have h2 : Measurable fun xy : Vec × Vec => Function.update q a xy.2 :=
    hu.comp (measurable_const.prodMk measurable_snd)
  exact (hF.comp (h1.prodMk h2)).aemeasurable

end Perm

variable {w : World} {lengths : Vec} {bravais : Fin 3 → Vec} {cutoff : ℝ}

/-! ### The flow in terms of the ends of the chain -/

section

variable {c : Chain} {t : ℕ → ℕ} {sign : ℤ} {R : ℝ} {law : ℕ → Measure ℝ} {κ : ℕ → ℝ≥0∞}

/-- The end of the chain in the direction `sign`, as a step. -/
noncomputable def endStep (w : World) (c : Chain) (t : ℕ → ℕ) (R : ℝ) (law : ℕ → Measure ℝ)
    (κ : ℕ → ℝ≥0∞) (sign : ℤ) : Step := stepOf w c t sign R law κ (endId c sign)

/-- The growth of the new head, as a step. -/
noncomputable def headStep (w : World) (c : Chain) (t : ℕ → ℕ) (R : ℝ) (law : ℕ → Measure ℝ)
    (κ : ℕ → ℝ≥0∞) (sign : ℤ) : Step :=
  stepOf (slidWorld w c sign) (moved c sign) t sign R law κ (endId c sign)

theorem slid_measurable : Measurable (slid c sign) :=
  measurable_pi_iff.2 fun b => measurable_pi_apply (slidLabel c sign b)

/-- Weights of the new head are weights of the end of the slid chain. -/
theorem headStep_slid (hc : c.OK w bravais R) (hu : Uniform c) (hs : sign = 1 ∨ sign = -1)
    (ht : ∀ j, Site c j → t (c.atom j) = c.atomType j) (z : Conf) :
    (headStep w c t R law κ sign).φ z = (endStep w c t R law κ sign).φ (slid c sign z) ∧
    (headStep w c t R law κ sign).ψ z = (endStep w c t R law κ sign).ψ (slid c sign z) ∧
    ∀ (m : ℕ) (us : Fin m → Vec), wt (reduce w.gen bravais) m (headStep w c t R law κ sign) z us =
      wt (reduce w.gen bravais) m (endStep w c t R law κ sign) (slid c sign z) us := by
  have h2 := hu.two
  have hh := endId_site h2 hs
  have ha : (headStep w c t R law κ sign).a = c.atom (endId c (-sign)) := by
    change (moved c sign).atom (endId c sign) = _
    rw [moved_atom]
    unfold nextSite
    rw [if_pos rfl]
  have hφ : ∀ z, (headStep w c t R law κ sign).φ z =
      (endStep w c t R law κ sign).φ (slid c sign z) := fun z => by
    change Real.exp (-w.beta * restE _ _ _ _ _ z) = Real.exp (-w.beta * _)
    rw [restE_slid h2 hc hu hs ht]
  refine ⟨hφ z, ?_, fun m us => ?_⟩
  · unfold headStep endStep stepOf
    dsimp only
    rw [moved_slid hc z hh.1, moved_slid hc z hh.2]
    rfl
  · unfold wt
    rw [hφ z]
    congr 1
    refine Finset.sum_congr rfl fun i _ => ?_
    rw [hφ, ha, slid_update h2 hc hs]
    congr 2
    unfold trial
    have e1 : (headStep w c t R law κ sign).len z =
        (endStep w c t R law κ sign).len (slid c sign z) := lenOf_slid h2 hc hs z
    have e2 : z (headStep w c t R law κ sign).b = slid c sign z (endStep w c t R law κ sign).b :=
      moved_slid hc z hh.2
    rw [e1, e2]

/-- Average of the acceptance probability over the Rosenbluth weight of the new end. -/
noncomputable def accAvg (w : World) (bravais : Fin 3 → Vec) (m : ℕ) (s s' : Step) (q y : Conf) :
    ℝ≥0∞ :=
  ∫⁻ us : Fin m → Vec, ∫⁻ us' : Fin m → Vec,
    ENNReal.ofReal (min 1 (wt (reduce w.gen bravais) m s' y us' / wt (reduce w.gen bravais) m s q us)) /
      ENNReal.ofReal (wt (reduce w.gen bravais) m s' y us')
    ∂(Measure.pi fun _ => direction) ∂(Measure.pi fun _ => direction)

theorem acc_measurable {m : ℕ} {s s' : Step} (hs : s.OK (cell w.gen) (reduce w.gen bravais) direction)
    (hs' : s'.OK (cell w.gen) (reduce w.gen bravais) direction)
    (hred : Measurable (reduce w.gen bravais)) :
    Measurable fun x : ((Conf × Conf) × (Fin m → Vec)) × (Fin m → Vec) =>
      ENNReal.ofReal (min 1 (wt (reduce w.gen bravais) m s' x.1.1.2 x.2 /
        wt (reduce w.gen bravais) m s x.1.1.1 x.1.2)) /
      ENNReal.ofReal (wt (reduce w.gen bravais) m s' x.1.1.2 x.2) := by
  have h1 : Measurable fun x : ((Conf × Conf) × (Fin m → Vec)) × (Fin m → Vec) =>
      wt (reduce w.gen bravais) m s x.1.1.1 x.1.2 :=
    (wt_measurable hs hred).comp (((measurable_fst.comp measurable_fst).comp measurable_fst).prodMk
      (measurable_snd.comp measurable_fst))
  have h2 : Measurable fun x : ((Conf × Conf) × (Fin m → Vec)) × (Fin m → Vec) =>
      wt (reduce w.gen bravais) m s' x.1.1.2 x.2 :=
    (wt_measurable hs' hred).comp (((measurable_snd.comp measurable_fst).comp measurable_fst).prodMk
      measurable_snd)
  exact (ENNReal.measurable_ofReal.comp (measurable_const.min (h2.div h1))).div
    (ENNReal.measurable_ofReal.comp h2)

theorem accAvg_measurable {m : ℕ} {s s' : Step}
    (hs : s.OK (cell w.gen) (reduce w.gen bravais) direction)
    (hs' : s'.OK (cell w.gen) (reduce w.gen bravais) direction)
    (hred : Measurable (reduce w.gen bravais)) :
    Measurable (Function.uncurry (accAvg w bravais m s s')) :=
  (acc_measurable hs hs' hred).lintegral_prod_right'.lintegral_prod_right'

/-- It is symmetric. -/
theorem accAvg_symm {m : ℕ} {s s' : Step}
    (hs : s.OK (cell w.gen) (reduce w.gen bravais) direction)
    (hs' : s'.OK (cell w.gen) (reduce w.gen bravais) direction)
    (hred : Measurable (reduce w.gen bravais)) (q y : Conf) :
    accAvg w bravais m s s' q y = accAvg w bravais m s' s y q := by
  unfold accAvg
  rw [lintegral_lintegral_swap]
  · refine lintegral_congr fun us' => lintegral_congr fun us => ?_
    exact accept_symm (wt_pos hs q us) (wt_pos hs' y us')
  · have h := acc_measurable (m := m) hs hs' hred
    exact (h.comp ((measurable_const (a := (q, y)) |>.prodMk measurable_fst).prodMk
      measurable_snd)).aemeasurable

/-- Density of the flow from `q` to the slid `z`. -/
noncomputable def density (w : World) (bravais : Fin 3 → Vec) (m : ℕ) (E : ℤ → Step) (c : Chain)
    (wgt : Conf → ℝ≥0∞) (A B : Set Conf) (sign : ℤ) (q z : Conf) : ℝ≥0∞ :=
  A.indicator 1 q * wgt q * (B.indicator 1 (slid c sign z) * product m [E sign] (slid c sign z) *
    accAvg w bravais m (E (-sign)) (E sign) q (slid c sign z))

theorem density_measurable {m : ℕ} {E : ℤ → Step}
    (hE : ∀ sign, (sign = 1 ∨ sign = -1) →
      (E sign).OK (cell w.gen) (reduce w.gen bravais) direction)
    (hred : Measurable (reduce w.gen bravais)) {wgt : Conf → ℝ≥0∞} (hw : Measurable wgt)
    {A B : Set Conf} (hA : MeasurableSet A) (hB : MeasurableSet B) (hs : sign = 1 ∨ sign = -1) :
    Measurable (Function.uncurry (density w bravais m E c wgt A B sign)) := by
  have hAm : Measurable (A.indicator (1 : Conf → ℝ≥0∞)) := measurable_one.indicator hA
  have hBm : Measurable (B.indicator (1 : Conf → ℝ≥0∞)) := measurable_one.indicator hB
  have hsl : Measurable fun y : Conf × Conf => slid c sign y.2 := slid_measurable.comp measurable_snd
  have hp : Measurable (product m [E sign]) := product_measurable (C := cell w.gen)
    (red := reduce w.gen bravais) (σ := direction) (by simpa using hE sign hs)
  have h1 : Measurable fun y : Conf × Conf => A.indicator (1 : Conf → ℝ≥0∞) y.1 * wgt y.1 :=
    (hAm.comp measurable_fst).mul (hw.comp measurable_fst)
  have h2 : Measurable fun y : Conf × Conf => B.indicator (1 : Conf → ℝ≥0∞) (slid c sign y.2) *
      product m [E sign] (slid c sign y.2) := (hBm.comp hsl).mul (hp.comp hsl)
  have h3 : Measurable fun y : Conf × Conf =>
      accAvg w bravais m (E (-sign)) (E sign) y.1 (slid c sign y.2) := by
    have := (accAvg_measurable (m := m) (hE _ (neg_cases hs)) (hE _ hs) hred).comp
      (measurable_fst.prodMk hsl)
    exact this
  have h4 := h1.mul (h2.mul h3)
  have h5 : Function.uncurry (density w bravais m E c wgt A B sign) = fun y : Conf × Conf =>
      A.indicator (1 : Conf → ℝ≥0∞) y.1 * wgt y.1 * (B.indicator (1 : Conf → ℝ≥0∞) (slid c sign y.2) *
      product m [E sign] (slid c sign y.2) *
      accAvg w bravais m (E (-sign)) (E sign) y.1 (slid c sign y.2)) := by
    funext ⟨q, z⟩
    simp only [Function.uncurry, density]
  rw [h5]
  exact h4

/-- Atoms of the chain. -/
def chainAtoms (c : Chain) : List ℕ := (sites c).map c.atom

theorem mem_chainAtoms {a : ℕ} : a ∈ chainAtoms c ↔ ∃ i, Site c i ∧ c.atom i = a := by
  unfold chainAtoms
  rw [List.mem_map]
  simp only [mem_sites]

theorem chainAtoms_nodup (hc : c.OK w bravais R) : (chainAtoms c).Nodup := by
  unfold chainAtoms
  refine List.Nodup.map_on (fun i hi j hj h => hc.inj _ _ (mem_sites.1 hi) (mem_sites.1 hj) h) ?_
  have := ids_pairwise (sign := 1) (Or.inl rfl) 0 c.nAtom.toNat
  exact this.imp fun h => by omega

theorem slidLabel_off {b : ℕ} (hb : b ∉ chainAtoms c) : slidLabel c sign b = b :=
  slidLabel_other fun i hi he => hb (mem_chainAtoms.2 ⟨i, hi, he.symm⟩)

theorem slidLabel_chain (h2 : 2 ≤ c.nAtom) (hc : c.OK w bravais R) (hs : sign = 1 ∨ sign = -1) {b : ℕ}
    (hb : b ∈ chainAtoms c) : slidLabel c sign b ∈ chainAtoms c := by
  obtain ⟨i, hi, rfl⟩ := mem_chainAtoms.1 hb
  rw [slidLabel_atom hc hi]
  exact mem_chainAtoms.2 ⟨_, nextSite_site h2 hs hi, rfl⟩

/-- **Symmetry of the flow.**  The flow of moves in one direction from `A` to `B` is the flow of
moves in the other direction from `B` to `A`. -/
theorem density_flow (hc : c.OK w bravais R) (h2 : 2 ≤ c.nAtom) (hs : sign = 1 ∨ sign = -1) {m : ℕ}
    {E : ℤ → Step} (hE : ∀ sign, (sign = 1 ∨ sign = -1) →
      (E sign).OK (cell w.gen) (reduce w.gen bravais) direction)
    (hC : MeasurableSet (cell w.gen)) (hred : Measurable (reduce w.gen bravais))
    {wgt : Conf → ℝ≥0∞} (hw : Measurable wgt) {A B : Set Conf} (hA : MeasurableSet A)
    (hB : MeasurableSet B) {p : Conf}
    (hK : ∀ q z, Off (chainAtoms c) p q → (∀ b, b ≠ c.atom (endId c (-sign)) → z b = q b) → q ∈ A →
      slid c sign z ∈ B → wgt (slid c sign z) * product m [E (-sign)] q =
        wgt q * product m [E sign] (slid c sign z)) :
    sweep (cell w.gen) (chainAtoms c) (fun q => ∫⁻ x in cell w.gen,
      density w bravais m E c wgt A B sign q (Function.update q (c.atom (endId c (-sign))) x)) p =
    sweep (cell w.gen) (chainAtoms c) (fun q => ∫⁻ x in cell w.gen,
      density w bravais m E c wgt B A (-sign) q (Function.update q (c.atom (endId c sign)) x)) p := by
  have hns := neg_cases hs
  have hT : c.atom (endId c (-sign)) ∈ chainAtoms c :=
    mem_chainAtoms.2 ⟨_, (endId_site h2 hns).1, rfl⟩
  have hFm := density_measurable (c := c) (m := m) hE hred hw hA hB hs
  rw [sweep_exchange (chainAtoms_nodup hc) hT hFm]
  have hGm : Measurable fun z : Conf => ∫⁻ x in cell w.gen, density w bravais m E c wgt A B sign
      (Function.update z (c.atom (endId c (-sign))) x) z := by
    have : Measurable fun y : Conf × Vec => density w bravais m E c wgt A B sign
        (Function.update y.1 (c.atom (endId c (-sign))) y.2) y.1 :=
      hFm.comp ((update_measurable _).prodMk measurable_fst)
    exact this.lintegral_prod_right'
  have hrel := sweep_relabel (C := cell w.gen) (σ := slidLabel c (-sign)) (σ' := slidLabel c sign)
    (fun b => slidLabel_neg h2 hc hs b) (fun b => slidLabel_neg' h2 hc hs b) (chainAtoms_nodup hc)
    (fun a ha => slidLabel_chain h2 hc hs ha) (fun b hb => slidLabel_off hb) hGm p
  rw [← hrel]
  refine sweep_congr hC fun y hy _ => lintegral_congr fun x => ?_
  obtain ⟨z, hz⟩ : ∃ z, z = slid c (-sign) y := ⟨_, rfl⟩
  have hyz : slid c sign z = y := by rw [hz, slid_neg h2 hc hs]
  change density w bravais m E c wgt A B sign
    (Function.update (slid c (-sign) y) (c.atom (endId c (-sign))) x) (slid c (-sign) y) = _
  have hx := slid_update h2 hc hns y x
  rw [neg_neg] at hx
  obtain ⟨q, hq⟩ : ∃ q, q = Function.update z (c.atom (endId c (-sign))) x := ⟨_, rfl⟩
  unfold density
  rw [hx, ← hz, ← hq, hyz, neg_neg]
  by_cases hqA : q ∈ A
  swap
  · rw [Set.indicator_of_notMem hqA]; simp
  by_cases hyB : y ∈ B
  swap
  · rw [Set.indicator_of_notMem hyB]; simp
  have hqo : Off (chainAtoms c) p q := by
    intro b hb
    rw [hq, Function.update_of_ne (fun h : b = _ => hb (h ▸ hT)), hz]
    unfold slid
    rw [slidLabel_off hb]
    exact hy b hb
  have hk := hK q z hqo (fun b hb => by rw [hq, Function.update_of_ne hb]) hqA (by rw [hyz]; exact hyB)
  rw [hyz] at hk
  rw [accAvg_symm (hE _ hns) (hE _ hs) hred, Set.indicator_of_mem hqA, Set.indicator_of_mem hyB]
  simp only [Pi.one_apply, one_mul]
  rw [← mul_assoc, ← mul_assoc, hk]

/-! ### Weights -/

theorem bondTerm_measurable (hm : Meas w c) (j : ℤ) : Measurable fun q => bondTerm w c q j := by
  unfold bondTerm
  exact (hm.bondE _).comp (dsq_measurable hm _ _)

theorem kept_measurable (hm : Meas w c) (t : ℕ → ℕ) (sign i : ℤ) : Measurable (kept w c t sign i) := by
  unfold kept
  refine ((Measurable.add ?_ ?_).add ?_).add ?_
  · unfold pairsOf
    refine Finset.measurable_sum _ fun a _ => Finset.measurable_sum _ fun b _ => ?_
    split
    · unfold pairE
      split
      · exact (hm.pair _ _).comp (dsq_measurable hm _ _)
      · exact measurable_const
    · exact measurable_const
  · exact Finset.measurable_sum _ fun a _ => (hm.ext _).comp (measurable_pi_apply _)
  · exact Finset.measurable_sum _ fun j _ => bondTerm_measurable hm j
  · split
    · refine Finset.measurable_sum _ fun j _ => ?_
      unfold angleTerm angleCos
      exact (hm.angleE _).comp (dot_measurable (unit_measurable hm _ _) (unit_measurable hm _ _))
    · exact measurable_const

/-- For given positions of other atoms, the energy is a measurable function of the positions of the
chain. -/
theorem energy_meas (ok : w.OK lengths bravais cutoff) (h2 : 2 ≤ c.nAtom) (hc : c.OK w bravais R)
    (hm : Meas w c) (hl : Linear w c (sites c)) (t : ℕ → ℕ) (p : Conf) :
    ∃ U : Conf → ℝ, Measurable U ∧ ∀ q, Off (chainAtoms c) p q → energy w q t = U q := by
  obtain ⟨rest, hr1, hr2⟩ := hl.bonded
  refine ⟨fun q => restE w c t 1 (endId c 1) q + bondTerm w c q (bondId 1 (endId c 1)) +
    kept w c t 1 (endId c 1 - 1) q + (rest p + (w.links.map fun x => x.energy p).sum +
      ∑ a ∈ w.atoms, w.tether a (p a)), ?_, fun q hq => ?_⟩
  · exact (((restE_measurable hm t _ _).add (bondTerm_measurable hm _)).add
      (kept_measurable hm t _ _)).add measurable_const
  · have hoff : ∀ b, (∀ j, Site c j → b ≠ c.atom j) → q b = p b := fun b hb =>
      hq b fun h => by
        obtain ⟨i, hi, rfl⟩ := mem_chainAtoms.1 h
        exact hb i hi rfl
    have e1 : rest q = rest p := hr1 _ _ hoff
    have e2 : (w.links.map fun x => x.energy q).sum = (w.links.map fun x => x.energy p).sum := by
      congr 1
      refine List.map_congr_left fun x hx => ok.links x hx _ _ fun a ha => hoff a fun j hj he => ?_
      exact hl.links x hx j (mem_sites.2 hj) (he ▸ ha)
    have e3 : ∑ a ∈ w.atoms, w.tether a (q a) = ∑ a ∈ w.atoms, w.tether a (p a) := by
      refine Finset.sum_congr rfl fun a _ => ?_
      by_cases ha : ∃ i, Site c i ∧ a = c.atom i
      · obtain ⟨i, hi, rfl⟩ := ha
        rw [hl.tethers i (mem_sites.2 hi), hl.tethers i (mem_sites.2 hi)]
      · rw [hoff a fun j hj he => ha ⟨j, hj, he⟩]
    rw [energy_end ok h2 hc hl (Or.inl rfl) t hr2 q, e1, e2, e3]
    ring

/-- Weights of the old and the new end. -/
theorem product_slid (ok : w.OK lengths bravais cutoff) (hc : c.OK w bravais R) (hu : Uniform c)
    (hl : Linear w c (sites c)) (hs : sign = 1 ∨ sign = -1) {bonded : Bool} (hm : Masks w c bonded)
    (ht : ∀ j, Site c j → t (c.atom j) = c.atomType j) (m : ℕ) {q z : Conf}
    (h : ∀ b, b ≠ c.atom (endId c (-sign)) → z b = q b)
    (hq : lenOf w c (-sign) (endId c (-sign)) q < R)
    (hz : lenOf w c sign (endId c sign) (slid c sign z) < R) :
    ENNReal.ofReal (Real.exp (-w.beta * energy w (slid c sign z) t)) *
        product m [endStep w c t R law κ (-sign)] q =
      ENNReal.ofReal (Real.exp (-w.beta * energy w q t)) *
        product m [endStep w c t R law κ sign] (slid c sign z) := by
  have he := energy_slid ok hc hu hl hs hm ht h
  have one : ∀ {sg : ℤ} (y : Conf), (sg = 1 ∨ sg = -1) → lenOf w c sg (endId c sg) y < R →
      product m [endStep w c t R law κ sg] y = ((m + 1 : ℕ) : ℝ≥0∞) * κ (c.bondType 0) *
        ENNReal.ofReal (Real.exp (-w.beta * (restE w c t sg (endId c sg) y +
          bondTerm w c y (bondId sg (endId c sg))))) := by
    intro sg y hsg hy
    have h1 : ∀ i ∈ [endId c sg], w.dsq (y (c.atom i)) (y (c.atom (i - sg))) < R ^ 2 := by
      intro i hi
      rw [List.mem_singleton.1 hi]
      unfold lenOf at hy
      exact (Real.sqrt_lt' hc.pos).1 hy
    have := product_eq (t := t) (law := law) (κ := κ) ok hsg m h1
    simp only [List.map_cons, List.map_nil, List.prod_cons, List.prod_nil, mul_one, List.sum_cons,
      List.sum_nil, add_zero] at this
    rw [hu.bonds _ 0] at this
    exact this
  rw [one q (neg_cases hs) hq, one _ hs hz]
  rw [mul_left_comm, mul_left_comm (ENNReal.ofReal _), ← ENNReal.ofReal_mul (Real.exp_pos _).le,
    ← ENNReal.ofReal_mul (Real.exp_pos _).le, ← Real.exp_add, ← Real.exp_add]
  congr 3
  have : energy w (slid c sign z) t + (restE w c t (-sign) (endId c (-sign)) q +
        bondTerm w c q (bondId (-sign) (endId c (-sign)))) =
      energy w q t + (restE w c t sign (endId c sign) (slid c sign z) +
        bondTerm w c (slid c sign z) (bondId sign (endId c sign))) := by linarith
  rw [← mul_add, ← mul_add, this]

end

end Verif.Cfb
