/-
The energy of the system as a sum over regrown atoms, and the Boltzmann weight of a configuration
as the product of the weights of the steps.
-/
import Verif.Cfb.Draws

set_option autoImplicit false

namespace Verif.Cfb

open Verif.Boundary Verif.McCellList Verif.McCell Verif.McMoves MeasureTheory
open scoped ENNReal

variable {w : World} {lengths : Vec} {bravais : Fin 3 → Vec} {cutoff : ℝ}

/-- Energy of bond `j` of the chain. -/
noncomputable def bondTerm (w : World) (c : Chain) (p : Conf) (j : ℤ) : ℝ :=
  c.bondE (w.dsq (p (c.atom j)) (p (c.atom (j + 1)))) (c.bondType j)

/-- Cosine of angle `j` of the chain: the scalar product of the unit vectors of its bonds,
AnglePotentialImpl.h:335-357. -/
noncomputable def angleCos (w : World) (c : Chain) (p : Conf) (j : ℤ) : ℝ :=
  dot ((Real.sqrt (w.dsq (p (c.atom j)) (p (c.atom (j + 1)))))⁻¹ •
      c.dvec (p (c.atom j)) (p (c.atom (j + 1))))
    ((Real.sqrt (w.dsq (p (c.atom (j + 1))) (p (c.atom (j + 2)))))⁻¹ •
      c.dvec (p (c.atom (j + 1))) (p (c.atom (j + 2))))

/-- Energy of angle `j` of the chain. -/
noncomputable def angleTerm (w : World) (c : Chain) (p : Conf) (j : ℤ) : ℝ :=
  c.angleE (angleCos w c p j) (c.angleType j)

/-- The interactions of the chain: bonds, angles if the system has any, and no links or tethers of
the atoms `l`.  The type of every angle is the type of the bond with the same index. -/
structure Linear (w : World) (c : Chain) (l : List ℤ) : Prop where
  anti : ∀ r r', c.dvec r r' = -c.dvec r' r
  types : c.hasAngles = true → ∀ j, 0 ≤ j → j + 2 < c.nAtom → c.bondType j = c.angleType j
  bonded : ∃ rest : Conf → ℝ,
    (∀ p p' : Conf, (∀ b, (∀ j, Site c j → b ≠ c.atom j) → p b = p' b) → rest p = rest p') ∧
    ∀ p, (w.bonded.map fun x => x.energy p).sum =
      ∑ j ∈ Finset.Ico 0 (c.nAtom - 1), bondTerm w c p j +
      (if c.hasAngles = true then ∑ j ∈ Finset.Ico 0 (c.nAtom - 2), angleTerm w c p j else 0) + rest p
  links : ∀ x ∈ w.links, ∀ j ∈ l, c.atom j ∉ x.atoms
  tethers : ∀ j ∈ l, ∀ r, w.tether (c.atom j) r = 0

/-! ### Peeling off the end of the chain -/

/-- Sum over pairs of atoms of a set. -/
noncomputable def pairsOf (w : World) (t : ℕ → ℕ) (S : Finset ℕ) (p : Conf) : ℝ :=
  ∑ a ∈ S, ∑ b ∈ S, if a < b then pairE w p t a b else 0

theorem pairsOf_peel (ok : w.OK lengths bravais cutoff) (t : ℕ → ℕ) {S : Finset ℕ} {a : ℕ} (ha : a ∈ S)
    (p : Conf) : pairsOf w t S p =
      (∑ b ∈ S, if b ≠ a then pairE w p t a b else 0) + pairsOf w t (S.erase a) p := by
  have hsym : ∀ x y, pairE w p t x y = pairE w p t y x := by
    intro x y
    unfold pairE
    rw [ok.msymm, ok.dsymm, ok.psymm]
  unfold pairsOf
  rw [split_pairs S {a} _ hsym]
  congr 1
  · rw [Finset.sum_eq_single a]
    · refine Finset.sum_congr rfl fun b _ => if_congr ?_ rfl rfl
      simp only [Finset.mem_singleton, true_and]
      tauto
    · intro x _ hx
      refine Finset.sum_eq_zero fun b _ => if_neg ?_
      simp [hx]
    · exact fun h => absurd ha h
  · rw [← Finset.sum_erase_add _ _ ha]
    have hz : (∑ b ∈ S, if a ∉ ({a} : Finset ℕ) ∧ b ∉ ({a} : Finset ℕ) ∧ a < b then
        pairE w p t a b else 0) = 0 := Finset.sum_eq_zero fun b _ => if_neg (by simp)
    rw [hz, add_zero]
    refine Finset.sum_congr rfl fun x hx => ?_
    rw [← Finset.sum_erase_add _ _ ha]
    have hz' : (if x ∉ ({a} : Finset ℕ) ∧ a ∉ ({a} : Finset ℕ) ∧ x < a then
        pairE w p t x a else 0) = 0 := if_neg (by simp)
    rw [hz', add_zero]
    refine Finset.sum_congr rfl fun y hy => if_congr ?_ rfl rfl
    simp only [Finset.mem_singleton]
    have h1 := (Finset.mem_erase.1 hx).1
    have h2 := (Finset.mem_erase.1 hy).1
    tauto

/-- Bonds whose atoms are not beyond atom `i`. -/
noncomputable def bondsUpTo (c : Chain) (sign i : ℤ) : Finset ℤ :=
  (Finset.Ico 0 (c.nAtom - 1)).filter fun j => sign * (j - i) ≤ 0 ∧ sign * (j + 1 - i) ≤ 0

/-- Angles whose atoms are not beyond atom `i`. -/
noncomputable def anglesUpTo (c : Chain) (sign i : ℤ) : Finset ℤ :=
  (Finset.Ico 0 (c.nAtom - 2)).filter fun j => sign * (j - i) ≤ 0 ∧ sign * (j + 2 - i) ≤ 0

/-- Energy without the atoms beyond atom `i`. -/
noncomputable def kept (w : World) (c : Chain) (t : ℕ → ℕ) (sign i : ℤ) (p : Conf) : ℝ :=
  pairsOf w t (w.atoms \ beyond c sign i) p + ∑ a ∈ w.atoms \ beyond c sign i, w.ext (p a) (t a) +
    ∑ j ∈ bondsUpTo c sign i, bondTerm w c p j +
    (if c.hasAngles = true then ∑ j ∈ anglesUpTo c sign i, angleTerm w c p j else 0)

theorem bond_eq (ok : w.OK lengths bravais cutoff) {c : Chain} {sign i : ℤ}
    (hs : sign = 1 ∨ sign = -1) (p : Conf) :
    bondTerm w c p (bondId sign i) =
      c.bondE (w.dsq (p (c.atom i)) (p (c.atom (i - sign)))) (c.bondType (bondId sign i)) := by
  unfold bondTerm bondId shiftOf
  rcases hs with rfl | rfl
  · rw [if_pos rfl, ok.dsymm]
    congr 4
    ring_nf
  · rw [if_neg (by decide)]
    have e1 : i - 0 + 1 = i + 1 := by ring
    have e2 : i - -1 = i + 1 := by ring
    have e3 : i - 0 = i := by ring
    rw [e1, e2, e3]

theorem dot_comm (u v : Vec) : dot u v = dot v u := by
  unfold dot
  ring

theorem dot_neg_neg (u v : Vec) : dot (-u) (-v) = dot u v := by
  unfold dot
  simp

theorem angle_eq (ok : w.OK lengths bravais cutoff) {c : Chain} {l : List ℤ} (hl : Linear w c l)
    {sign i : ℤ} (hs : sign = 1 ∨ sign = -1) (p : Conf) :
    angleCos w c p (angleId sign i) =
      dot ((Real.sqrt (w.dsq (p (c.atom (i - sign))) (p (c.atom i))))⁻¹ •
          c.dvec (p (c.atom (i - sign))) (p (c.atom i)))
        ((Real.sqrt (w.dsq (p (c.atom (i - 2 * sign))) (p (c.atom (i - sign)))))⁻¹ •
          c.dvec (p (c.atom (i - 2 * sign))) (p (c.atom (i - sign)))) := by
  unfold angleCos angleId shiftOf
  rcases hs with rfl | rfl
  · rw [if_pos rfl, dot_comm]
    have e1 : i - 2 * 1 + 1 = i - 1 := by ring
    have e2 : i - 2 * 1 + 2 = i := by ring
    rw [e1, e2]
  · rw [if_neg (by decide)]
    have e1 : i - -1 = i + 1 := by ring
    have e2 : i - 2 * -1 = i + 2 := by ring
    have e3 : i - 2 * 0 = i := by ring
    rw [e1, e2, e3, hl.anti (p (c.atom (i + 1))) (p (c.atom i)),
      hl.anti (p (c.atom (i + 2))) (p (c.atom (i + 1))), smul_neg, smul_neg, dot_neg_neg,
      ok.dsymm (p (c.atom (i + 1))) (p (c.atom i)), ok.dsymm (p (c.atom (i + 2))) (p (c.atom (i + 1)))]

theorem kept_step (ok : w.OK lengths bravais cutoff) {c : Chain} {R : ℝ} (hc : c.OK w bravais R)
    {l : List ℤ} (hl : Linear w c l) (t : ℕ → ℕ) {sign i : ℤ} (hs : sign = 1 ∨ sign = -1) (hi : Site c i)
    (hi' : Site c (i - sign)) (p : Conf) :
    kept w c t sign i p = restE w c t sign i p + bondTerm w c p (bondId sign i) +
      kept w c t sign (i - sign) p := by
  have ha : c.atom i ∈ w.atoms \ beyond c sign i :=
    Finset.mem_sdiff.2 ⟨hc.mem _ hi, sites_notMem hc hi (by simp)⟩
  have hS : (w.atoms \ beyond c sign i).erase (c.atom i) = w.atoms \ beyond c sign (i - sign) := by
    rw [beyond_step hs hi]
    ext b
    simp only [Finset.mem_erase, Finset.mem_sdiff, Finset.mem_insert]
    tauto
  have hbm : bondId sign i ∉ bondsUpTo c sign (i - sign) := by
    unfold bondsUpTo bondId shiftOf
    unfold Site at hi hi'
    simp only [Finset.mem_filter, Finset.mem_Ico]
    rcases hs with rfl | rfl <;> simp
  have hb : bondsUpTo c sign i = insert (bondId sign i) (bondsUpTo c sign (i - sign)) := by
    ext j
    unfold bondsUpTo bondId shiftOf
    unfold Site at hi hi'
    simp only [Finset.mem_filter, Finset.mem_Ico, Finset.mem_insert]
    rcases hs with rfl | rfl <;> simp <;> omega
  have hang : (if c.hasAngles = true then ∑ j ∈ anglesUpTo c sign i, angleTerm w c p j else 0) =
      (if hasAngle c sign i = true then c.angleE (dot
        ((Real.sqrt (w.dsq (p (c.atom (i - sign))) (p (c.atom i))))⁻¹ •
          c.dvec (p (c.atom (i - sign))) (p (c.atom i)))
        ((Real.sqrt (w.dsq (p (c.atom (i - 2 * sign))) (p (c.atom (i - sign)))))⁻¹ •
          c.dvec (p (c.atom (i - 2 * sign))) (p (c.atom (i - sign)))))
        (c.bondType (angleId sign i)) else 0) +
      (if c.hasAngles = true then ∑ j ∈ anglesUpTo c sign (i - sign), angleTerm w c p j else 0) := by
    by_cases h : c.hasAngles = true
    · rw [if_pos h, if_pos h]
      by_cases h' : hasAngle c sign i = true
      · have hi2 := next_site hs hi h'
        have ham : angleId sign i ∉ anglesUpTo c sign (i - sign) := by
          unfold anglesUpTo angleId shiftOf
          unfold Site at hi hi' hi2
          simp only [Finset.mem_filter, Finset.mem_Ico]
          rcases hs with rfl | rfl <;> simp
        have hins : anglesUpTo c sign i = insert (angleId sign i) (anglesUpTo c sign (i - sign)) := by
          ext j
          unfold anglesUpTo angleId shiftOf
          unfold Site at hi hi' hi2
          simp only [Finset.mem_filter, Finset.mem_Ico, Finset.mem_insert]
          rcases hs with rfl | rfl <;> simp at * <;> omega
        have hty : c.bondType (angleId sign i) = c.angleType (angleId sign i) := by
          refine hl.types h _ ?_ ?_ <;>
          · unfold angleId shiftOf
            unfold Site at hi hi' hi2
            rcases hs with rfl | rfl <;> simp at * <;> omega
        rw [if_pos h', hins, Finset.sum_insert ham, hty, ← angle_eq ok hl hs]
        rfl
      · have hsame : anglesUpTo c sign i = anglesUpTo c sign (i - sign) := by
          ext j
          unfold hasAngle at h'
          unfold anglesUpTo
          unfold Site at hi hi'
          rw [h] at h'
          simp only [Finset.mem_filter, Finset.mem_Ico]
          rcases hs with rfl | rfl <;> simp at * <;> omega
        rw [if_neg h', hsame, zero_add]
    · have h' : ¬ hasAngle c sign i = true := by
        unfold hasAngle
        simp [h]
      rw [if_neg h, if_neg h, if_neg h', zero_add]
  have hext : ∑ a ∈ w.atoms \ beyond c sign i, w.ext (p a) (t a) =
      w.ext (p (c.atom i)) (t (c.atom i)) +
        ∑ a ∈ w.atoms \ beyond c sign (i - sign), w.ext (p a) (t a) := by
    rw [← Finset.add_sum_erase _ _ ha, hS]
  unfold kept
  rw [pairsOf_peel ok t ha, hS, hext, hb, Finset.sum_insert hbm, hang]
  unfold restE pairWith
  ring

theorem kept_congr {c : Chain} {R : ℝ} (hc : c.OK w bravais R) (t : ℕ → ℕ) {sign i : ℤ}
    (hs : sign = 1 ∨ sign = -1) {p q : Conf} (h : ∀ b, b ∉ beyond c sign i → p b = q b) :
    kept w c t sign i p = kept w c t sign i q := by
  have hsite : ∀ j, Site c j → sign * (j - i) ≤ 0 → p (c.atom j) = q (c.atom j) := fun j hj hle =>
    h _ (sites_notMem hc hj hle)
  unfold kept
  congr 1
  · congr 1
    · congr 1
      · unfold pairsOf
        refine Finset.sum_congr rfl fun a ha => Finset.sum_congr rfl fun b hb => ?_
        unfold pairE
        rw [h a (Finset.mem_sdiff.1 ha).2, h b (Finset.mem_sdiff.1 hb).2]
      · refine Finset.sum_congr rfl fun a ha => ?_
        rw [h a (Finset.mem_sdiff.1 ha).2]
    · refine Finset.sum_congr rfl fun j hj => ?_
      unfold bondsUpTo at hj
      simp only [Finset.mem_filter, Finset.mem_Ico] at hj
      unfold bondTerm
      rw [hsite j ⟨hj.1.1, by omega⟩ hj.2.1, hsite (j + 1) ⟨by omega, by omega⟩ hj.2.2]
  · split
    · refine Finset.sum_congr rfl fun j hj => ?_
      unfold anglesUpTo at hj
      simp only [Finset.mem_filter, Finset.mem_Ico] at hj
      unfold angleTerm angleCos
      rw [hsite j ⟨hj.1.1, by omega⟩ hj.2.1,
        hsite (j + 1) ⟨by omega, by omega⟩ (by rcases hs with rfl | rfl <;> omega),
        hsite (j + 2) ⟨by omega, by omega⟩ hj.2.2]
    · rfl

theorem kept_all (ok : w.OK lengths bravais cutoff) {c : Chain} {R : ℝ} (hc : c.OK w bravais R)
    {l : List ℤ} (hl : Linear w c l) (t : ℕ → ℕ) {sign : ℤ} (hs : sign = 1 ∨ sign = -1) (p : Conf)
    {n : ℕ} : ∀ {i : ℤ}, (∀ j ∈ ids i sign n, Site c j ∧ Site c (j - sign)) →
    kept w c t sign (i - sign + n * sign) p = ((ids i sign n).map fun j =>
      restE w c t sign j p + bondTerm w c p (bondId sign j)).sum + kept w c t sign (i - sign) p := by
  induction n with
  | zero => intro i _; simp [ids]
  | succ n ih =>
    intro i hsites
    obtain ⟨hi, hi'⟩ := hsites i (by simp [ids])
    have e : i - sign + ((n + 1 : ℕ) : ℤ) * sign = i + sign - sign + n * sign := by push_cast; ring
    have e' : i + sign - sign = i := by ring
    rw [e, ih (i := i + sign) (fun j hj => hsites j (by simp [ids, hj])), e',
      kept_step ok hc hl t hs hi hi']
    simp only [ids, List.map_cons, List.sum_cons]
    ring

/-- The energy is the sum over the regrown atoms and a part that does not depend on them. -/
theorem energy_eq (ok : w.OK lengths bravais cutoff) {c : Chain} {R : ℝ} (hc : c.OK w bravais R)
    {n : ℕ} (hn : (n : ℤ) < c.nAtom) {sign : ℤ} (hs : sign = 1 ∨ sign = -1)
    (hl : Linear w c (regrown c n sign)) (t : ℕ → ℕ) {p q : Conf}
    (h : Off ((regrown c n sign).map c.atom) p q) :
    energy w q t - ((regrown c n sign).map fun j =>
        restE w c t sign j q + bondTerm w c q (bondId sign j)).sum =
      energy w p t - ((regrown c n sign).map fun j =>
        restE w c t sign j p + bondTerm w c p (bondId sign j)).sum := by
  obtain ⟨rest, hr1, hr2⟩ := hl.bonded
  have hend : ∀ p, energy w p t = kept w c t sign (endId c sign) p + rest p +
      (w.links.map fun x => x.energy p).sum + ∑ a ∈ w.atoms, w.tether a (p a) := by
    intro p
    unfold energy kept
    rw [beyond_last c hs, Finset.sdiff_empty, hr2 p]
    have e1 : bondsUpTo c sign (endId c sign) = Finset.Ico 0 (c.nAtom - 1) := by
      unfold bondsUpTo endId
      ext j
      simp only [Finset.mem_filter, Finset.mem_Ico]
      rcases hs with rfl | rfl <;> simp <;> omega
    have e2 : anglesUpTo c sign (endId c sign) = Finset.Ico 0 (c.nAtom - 2) := by
      unfold anglesUpTo endId
      ext j
      simp only [Finset.mem_filter, Finset.mem_Ico]
      rcases hs with rfl | rfl <;> simp <;> omega
    rw [e1, e2]
    unfold pairsOf
    ring
  have hmem : ∀ j, j ∈ regrown c n sign → c.atom j ∈ (regrown c n sign).map c.atom := fun j hj =>
    List.mem_map_of_mem hj
  have hbey : ∀ b ∈ (regrown c n sign).map c.atom, b ∈ beyond c sign (beginId c n sign - sign) := by
    intro b hb
    obtain ⟨j, hj, rfl⟩ := List.mem_map.1 hb
    have hsite := (regrown_site hn hs hj).1
    unfold beyond
    refine Finset.mem_image_of_mem _ ?_
    simp only [Finset.mem_filter, Finset.mem_Ico]
    refine ⟨hsite, ?_⟩
    obtain ⟨k, hk, rfl⟩ := mem_ids.1 hj
    rcases hs with rfl | rfl
    · simp
    · simp
      omega
  have hkept : kept w c t sign (beginId c n sign - sign) q =
      kept w c t sign (beginId c n sign - sign) p :=
    kept_congr hc t hs fun b hb => h b fun hb' => hb (hbey b hb')
  have hrest : rest q = rest p := hr1 q p fun b hb => h b fun hb' => by
    obtain ⟨j, hj, rfl⟩ := List.mem_map.1 hb'
    exact hb j (regrown_site hn hs hj).1 rfl
  have hlinks : (w.links.map fun x => x.energy q).sum = (w.links.map fun x => x.energy p).sum := by
    congr 1
    refine List.map_congr_left fun x hx => ok.links x hx q p fun a ha => h a fun ha' => ?_
    obtain ⟨j, hj, rfl⟩ := List.mem_map.1 ha'
    exact hl.links x hx j hj ha
  have hteth : ∑ a ∈ w.atoms, w.tether a (q a) = ∑ a ∈ w.atoms, w.tether a (p a) := by
    refine Finset.sum_congr rfl fun a _ => ?_
    by_cases ha : a ∈ (regrown c n sign).map c.atom
    · obtain ⟨j, hj, rfl⟩ := List.mem_map.1 ha
      rw [hl.tethers j hj, hl.tethers j hj]
    · rw [h a ha]
  have hsum : ∀ p, kept w c t sign (endId c sign) p = ((regrown c n sign).map fun j =>
        restE w c t sign j p + bondTerm w c p (bondId sign j)).sum +
      kept w c t sign (beginId c n sign - sign) p := by
    intro p
    rw [← regrown_last c n hs]
    exact kept_all ok hc hl t hs p fun j hj => regrown_site hn hs hj
  rw [hend q, hend p, hsum q, hsum p, hkept, hrest, hlinks, hteth]
  ring

/-! ### Weights of the steps -/

section

variable {c : Chain} {t : ℕ → ℕ} {sign : ℤ} {R : ℝ} {law : ℕ → Measure ℝ} {κ : ℕ → ℝ≥0∞}

theorem product_eq (ok : w.OK lengths bravais cutoff) (hs : sign = 1 ∨ sign = -1) (m : ℕ) {q : Conf} :
    ∀ {l : List ℤ}, (∀ i ∈ l, w.dsq (q (c.atom i)) (q (c.atom (i - sign))) < R ^ 2) →
    product m (l.map (stepOf w c t sign R law κ)) q =
      (l.map fun i => ((m + 1 : ℕ) : ℝ≥0∞) * κ (c.bondType (bondId sign i))).prod *
        ENNReal.ofReal (Real.exp (-w.beta * (l.map fun j =>
          restE w c t sign j q + bondTerm w c q (bondId sign j)).sum)) := by
  intro l
  induction l with
  | nil => intro _; simp [product]
  | cons i l ih =>
    intro h
    have ih' := ih fun j hj => h j (List.mem_cons_of_mem _ hj)
    unfold product at ih' ⊢
    rw [List.map_cons, List.map_cons, List.prod_cons, ih']
    simp only [List.map_cons, List.prod_cons, List.sum_cons]
    have hψ : (stepOf w c t sign R law κ i).ψ q = κ (c.bondType (bondId sign i)) *
        ENNReal.ofReal (Real.exp (-w.beta * bondTerm w c q (bondId sign i))) := by
      unfold stepOf
      dsimp only
      rw [if_pos (h i List.mem_cons_self), bond_eq ok hs]
    have hφ : (stepOf w c t sign R law κ i).φ q = Real.exp (-w.beta * restE w c t sign i q) := rfl
    have he : ENNReal.ofReal (Real.exp (-w.beta * (restE w c t sign i q +
        bondTerm w c q (bondId sign i) + (l.map fun j =>
          restE w c t sign j q + bondTerm w c q (bondId sign j)).sum))) =
        ENNReal.ofReal (Real.exp (-w.beta * restE w c t sign i q)) *
        ENNReal.ofReal (Real.exp (-w.beta * bondTerm w c q (bondId sign i))) *
        ENNReal.ofReal (Real.exp (-w.beta * (l.map fun j =>
          restE w c t sign j q + bondTerm w c q (bondId sign j)).sum)) := by
      rw [mul_add, mul_add, Real.exp_add, Real.exp_add, ENNReal.ofReal_mul (by positivity),
        ENNReal.ofReal_mul (by positivity)]
    rw [hψ, hφ, he]
    ring

/-- The Boltzmann weight is proportional to the product of the weights of the steps. -/
theorem weight_eq (ok : w.OK lengths bravais cutoff) (hc : c.OK w bravais R)
    {n : ℕ} (hn : (n : ℤ) < c.nAtom) (hs : sign = 1 ∨ sign = -1)
    (hl : Linear w c (regrown c n sign)) (m : ℕ)
    (hκ : ∀ i, κ (c.bondType i) ≠ 0 ∧ κ (c.bondType i) ≠ ∞) (p : Conf) :
    ∃ K : ℝ≥0∞, ∀ q, Off ((regrown c n sign).map c.atom) p q →
      (∀ i ∈ regrown c n sign, lenOf w c sign i q < R) →
      ENNReal.ofReal (Real.exp (-w.beta * energy w q t)) =
        K * product m ((regrown c n sign).map (stepOf w c t sign R law κ)) q := by
  obtain ⟨Z, hZ⟩ : ∃ Z : ℝ≥0∞, Z = ((regrown c n sign).map fun i =>
    ((m + 1 : ℕ) : ℝ≥0∞) * κ (c.bondType (bondId sign i))).prod := ⟨_, rfl⟩
  have hZ0 : Z ≠ 0 := by
    rw [hZ]
    refine List.prod_ne_zero fun h0 => ?_
    obtain ⟨i, _, hi⟩ := List.mem_map.1 h0
    exact mul_ne_zero (by simp) (hκ _).1 hi
  have hZt : Z ≠ ∞ := by
    rw [hZ]
    generalize regrown c n sign = l
    induction l with
    | nil => simp
    | cons i l ih =>
      rw [List.map_cons, List.prod_cons]
      exact ENNReal.mul_ne_top (ENNReal.mul_ne_top (by simp) (hκ _).2) ih
  refine ⟨ENNReal.ofReal (Real.exp (-w.beta * (energy w p t - ((regrown c n sign).map fun j =>
    restE w c t sign j p + bondTerm w c p (bondId sign j)).sum))) / Z, fun q hq hlen => ?_⟩
  have hlen' : ∀ i ∈ regrown c n sign,
      w.dsq (q (c.atom i)) (q (c.atom (i - sign))) < R ^ 2 := by
    intro i hi
    have := hlen i hi
    unfold lenOf at this
    exact (Real.sqrt_lt' hc.pos).1 this
  rw [product_eq ok hs m hlen', ← hZ, ← energy_eq ok hc hn hs hl t hq, ← mul_assoc,
    ENNReal.div_mul_cancel hZ0 hZt, ← ENNReal.ofReal_mul (by positivity), ← Real.exp_add]
  congr 2
  ring

/-- Energies and separations are measurable. -/
structure Meas (w : World) (c : Chain) : Prop where
  pair : ∀ t t', Measurable fun x => w.pair x t t'
  dsq : Measurable (Function.uncurry w.dsq)
  ext : ∀ t, Measurable fun r => w.ext r t
  dvec : Measurable (Function.uncurry c.dvec)
  bondE : ∀ t, Measurable fun x => c.bondE x t
  angleE : ∀ t, Measurable fun x => c.angleE x t

theorem dsq_measurable (hm : Meas w c) (a b : ℕ) : Measurable fun q : Conf => w.dsq (q a) (q b) := by
  have h : Measurable fun q : Conf => (q a, q b) :=
    (measurable_pi_apply a).prodMk (measurable_pi_apply b)
  exact hm.dsq.comp h

theorem unit_measurable (hm : Meas w c) (a b : ℕ) : Measurable fun q : Conf =>
    (Real.sqrt (w.dsq (q a) (q b)))⁻¹ • c.dvec (q a) (q b) := by
  have h : Measurable fun q : Conf => (q a, q b) :=
    (measurable_pi_apply a).prodMk (measurable_pi_apply b)
  exact ((dsq_measurable hm a b).sqrt.inv).smul (hm.dvec.comp h)

theorem dot_measurable {f g : Conf → Vec} (hf : Measurable f) (hg : Measurable g) :
    Measurable fun q => dot (f q) (g q) := by
  unfold dot
  have h : ∀ i, Measurable fun q => f q i * g q i := fun i =>
    ((measurable_pi_apply i).comp hf).mul ((measurable_pi_apply i).comp hg)
  exact ((h 0).add (h 1)).add (h 2)

theorem restE_measurable (hm : Meas w c) (t : ℕ → ℕ) (sign i : ℤ) :
    Measurable (restE w c t sign i) := by
  unfold restE
  refine (Measurable.add ?_ ?_).add ((hm.ext _).comp (measurable_pi_apply _))
  · unfold pairWith
    refine Finset.measurable_sum _ fun b _ => ?_
    split
    · unfold pairE
      split
      · exact (hm.pair _ _).comp (dsq_measurable hm _ _)
      · exact measurable_const
    · exact measurable_const
  · split
    · exact (hm.angleE _).comp (dot_measurable (unit_measurable hm _ _) (unit_measurable hm _ _))
    · exact measurable_const

theorem φOf_measurable (hm : Meas w c) (t : ℕ → ℕ) (sign i : ℤ) :
    Measurable (φOf w c t sign i) := by
  unfold φOf
  exact Real.measurable_exp.comp (measurable_const.mul (restE_measurable hm t sign i))

theorem step_ok (ok : w.OK lengths bravais cutoff) (hc : c.OK w bravais R) (hm : Meas w c)
    (hs : sign = 1 ∨ sign = -1) {cst : ℕ → ℝ≥0∞} {i : ℤ}
    (hlaw : LengthLaw w.beta (fun x => c.bondE x (c.bondType (bondId sign i))) R
      (law (c.bondType (bondId sign i))) (cst (c.bondType (bondId sign i))))
    (hi : Site c i) (hi' : Site c (i - sign)) :
    (stepOf w c t sign R law (fun x => cst x * (area Set.univ)⁻¹) i).OK (cell w.gen)
      (reduce w.gen bravais) direction := by
  classical
  have hne : c.atom (i - sign) ≠ c.atom i := fun he => by
    have := hc.inj _ _ hi' hi he
    rcases hs with rfl | rfl <;> omega
  constructor
  · intro q; exact Real.exp_pos _
  · exact φOf_measurable hm t sign i
  · unfold stepOf
    dsimp only
    refine measurable_const.mul (Measurable.ite ?_ ?_ measurable_const)
    · exact measurableSet_lt (dsq_measurable hm _ _) measurable_const
    · exact ENNReal.measurable_ofReal.comp (Real.measurable_exp.comp
        (measurable_const.mul ((hm.bondE _).comp (dsq_measurable hm _ _))))
  · exact (dsq_measurable hm _ _).sqrt
  · unfold stepOf
    dsimp only
    rw [hlaw]
    infer_instance
  · exact hne
  · intro p hp F hF
    have := bond_law ok.geo ok.dist hc.pos hc.wide hc.exact (hm.bondE _) hlaw hp hF
    refine Eq.trans this (lintegral_congr fun x => ?_)
    unfold stepOf lenOf
    dsimp only
    rw [Function.update_self, Function.update_of_ne hne]

theorem law_range {β : ℝ} {u : ℝ → ℝ} {ρ : Measure ℝ} {k : ℝ≥0∞} (h : LengthLaw β u R ρ k) :
    ∀ᵐ ℓ ∂ρ.restrict (Set.Iio R), 0 < ℓ ∧ ℓ < R := by
  rw [h]
  refine (withDensity_absolutelyContinuous _ _).ae_le ?_
  filter_upwards [ae_restrict_mem measurableSet_Ioo] with ℓ hℓ
  exact hℓ

theorem ids_pairwise (hs : sign = 1 ∨ sign = -1) (start : ℤ) (n : ℕ) :
    (ids start sign n).Pairwise fun a b => 0 < sign * (b - a) := by
  induction n generalizing start with
  | zero => simp [ids]
  | succ n ih =>
    simp only [ids, List.pairwise_cons]
    refine ⟨fun b hb => ?_, ih _⟩
    obtain ⟨k, hk, rfl⟩ := mem_ids.1 hb
    rcases hs with rfl | rfl
    · simp; omega
    · simp; omega

theorem steps_local (hc : c.OK w bravais R) {n : ℕ} (hn : (n : ℤ) < c.nAtom)
    (hs : sign = 1 ∨ sign = -1) :
    ((regrown c n sign).map (stepOf w c t sign R law κ)).Pairwise Local := by
  classical
  rw [List.pairwise_map]
  have hpw := ids_pairwise hs (beginId c n sign) n
  refine List.Pairwise.imp_of_mem ?_ hpw
  intro i j hi hj hij
  obtain ⟨hi1, hi2⟩ := regrown_site hn hs (show i ∈ regrown c n sign from hi)
  obtain ⟨hj1, -⟩ := regrown_site hn hs (show j ∈ regrown c n sign from hj)
  have hmem : c.atom j ∈ beyond c sign i :=
    Finset.mem_image_of_mem _ (Finset.mem_filter.2 ⟨Finset.mem_Ico.2 hj1, hij⟩)
  have hag : ∀ (q : Conf) x, ∀ b, b ∉ beyond c sign i → Function.update q (c.atom j) x b = q b :=
    fun q x b hb => Function.update_of_ne (fun h : b = c.atom j => hb (by rw [h]; exact hmem)) _ _
  have h1 : c.atom i ≠ c.atom j := fun h =>
    sites_notMem hc (sign := sign) (i := i) hi1 (by simp) (h ▸ hmem)
  have h2 : c.atom (i - sign) ≠ c.atom j := fun h =>
    sites_notMem hc (sign := sign) (i := i) hi2 (by rcases hs with rfl | rfl <;> omega) (h ▸ hmem)
  refine ⟨h1, h2, fun q x => ⟨φOf_congr hc hs hi1 hi2 (hag q x), ?_, lenOf_congr hc hs hi1 hi2 (hag q x)⟩⟩
  unfold stepOf
  dsimp only
  rw [Function.update_of_ne h1, Function.update_of_ne h2]

end

end Verif.Cfb
