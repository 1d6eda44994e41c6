/-
Energy of a slid chain: the tail is replaced by a new head, and nothing else changes if all atoms,
bonds and angles of the chain are of the same types.
-/
import Verif.Cfb.ReptRun

set_option autoImplicit false

namespace Verif.Cfb

open Verif.Boundary Verif.McCellList Verif.McCell Verif.McMoves MeasureTheory
open scoped ENNReal

variable {w : World} {lengths : Vec} {bravais : Fin 3 → Vec} {cutoff : ℝ}

/-- All atoms of the chain have the same type, and so have all bonds. -/
structure Uniform (c : Chain) : Prop where
  two : 2 ≤ c.nAtom
  atoms : ∀ i j, Site c i → Site c j → c.atomType i = c.atomType j
  bonds : ∀ i j, c.bondType i = c.bondType j

/-! ### Pairs and permutations -/

theorem pairs_twice (S : Finset ℕ) {f : ℕ → ℕ → ℝ} (hf : ∀ a b, f a b = f b a) :
    2 * (∑ a ∈ S, ∑ b ∈ S, if a < b then f a b else 0) = ∑ a ∈ S, ∑ b ∈ S, if a ≠ b then f a b else 0 := by
  have h1 : (∑ a ∈ S, ∑ b ∈ S, if a < b then f a b else 0) =
      ∑ a ∈ S, ∑ b ∈ S, if b < a then f a b else 0 := by
    rw [Finset.sum_comm]
    refine Finset.sum_congr rfl fun a _ => Finset.sum_congr rfl fun b _ => ?_
    rw [hf]
  rw [two_mul]
  nth_rw 2 [h1]
  rw [← Finset.sum_add_distrib]
  refine Finset.sum_congr rfl fun a _ => ?_
  rw [← Finset.sum_add_distrib]
  refine Finset.sum_congr rfl fun b _ => ?_
  rcases lt_trichotomy a b with h | h | h
  · rw [if_pos h, if_neg (by omega), if_pos (by omega), add_zero]
  · rw [if_neg (by omega), if_neg (by omega), if_neg (by omega), add_zero]
  · rw [if_neg (by omega), if_pos h, if_pos (by omega), zero_add]

/-- Sums over pairs with permuted labels. -/
theorem pairs_relabel {S S' : Finset ℕ} {f g : ℕ → ℕ → ℝ} (hf : ∀ a b, f a b = f b a)
    (hg : ∀ a b, g a b = g b a) {ρ ρ' : ℕ → ℕ} (h1 : ∀ a ∈ S, ρ a ∈ S') (h2 : ∀ a ∈ S', ρ' a ∈ S)
    (h3 : ∀ a ∈ S, ρ' (ρ a) = a) (h4 : ∀ a ∈ S', ρ (ρ' a) = a)
    (h : ∀ a ∈ S, ∀ b ∈ S, f a b = g (ρ a) (ρ b)) :
    (∑ a ∈ S, ∑ b ∈ S, if a < b then f a b else 0) =
      ∑ a ∈ S', ∑ b ∈ S', if a < b then g a b else 0 := by
  have key : (∑ a ∈ S, ∑ b ∈ S, if a ≠ b then f a b else 0) =
      ∑ a ∈ S', ∑ b ∈ S', if a ≠ b then g a b else 0 := by
    refine Finset.sum_bij' (fun a _ => ρ a) (fun a _ => ρ' a) h1 h2 h3 h4 fun a ha => ?_
    refine Finset.sum_bij' (fun a _ => ρ a) (fun a _ => ρ' a) h1 h2 h3 h4 fun b hb => ?_
    rw [h a ha b hb]
    refine if_congr (not_congr ⟨fun e => by rw [e], fun e => ?_⟩) rfl rfl
    rw [← h3 a ha, e, h3 b hb]
  rw [← pairs_twice S hf, ← pairs_twice S' hg] at key
  linarith

/-! ### The slid configuration -/

/-- Positions after the move: every atom at the position of the next one. -/
noncomputable def slid (c : Chain) (sign : ℤ) (z : Conf) : Conf := fun b => z (slidLabel c sign b)

section

variable {c : Chain} {sign : ℤ} {R : ℝ}

theorem slid_neg (h2 : 2 ≤ c.nAtom) (hc : c.OK w bravais R) (hs : sign = 1 ∨ sign = -1) (z : Conf) :
    slid c sign (slid c (-sign) z) = z := by
  funext b
  unfold slid
  rw [slidLabel_neg h2 hc hs]

theorem slidLabel_tail (h2 : 2 ≤ c.nAtom) (hc : c.OK w bravais R) (hs : sign = 1 ∨ sign = -1) :
    slidLabel c sign (c.atom (endId c sign)) = c.atom (endId c (-sign)) := by
  rw [slidLabel_atom hc (endId_site h2 hs).1]
  unfold nextSite
  rw [if_pos rfl]

theorem slidLabel_ne (h2 : 2 ≤ c.nAtom) (hc : c.OK w bravais R) (hs : sign = 1 ∨ sign = -1) {b : ℕ}
    (hb : b ≠ c.atom (endId c sign)) : slidLabel c sign b ≠ c.atom (endId c (-sign)) := by
  intro h
  rw [← slidLabel_tail h2 hc hs] at h
  have := congrArg (slidLabel c (-sign)) h
  rw [slidLabel_neg h2 hc hs, slidLabel_neg h2 hc hs] at this
  exact hb this

/-- Changing the tail atom before sliding is changing the head after it. -/
theorem slid_update (h2 : 2 ≤ c.nAtom) (hc : c.OK w bravais R) (hs : sign = 1 ∨ sign = -1)
    (z : Conf) (x : Vec) : slid c sign (Function.update z (c.atom (endId c (-sign))) x) =
      Function.update (slid c sign z) (c.atom (endId c sign)) x := by
  funext b
  unfold slid
  by_cases hb : b = c.atom (endId c sign)
  · rw [hb, slidLabel_tail h2 hc hs, Function.update_self, Function.update_self]
  · rw [Function.update_of_ne hb, Function.update_of_ne (slidLabel_ne h2 hc hs hb)]

theorem slidLabel_neg' (h2 : 2 ≤ c.nAtom) (hc : c.OK w bravais R) (hs : sign = 1 ∨ sign = -1) (b : ℕ) :
    slidLabel c sign (slidLabel c (-sign) b) = b := by
  have := slidLabel_neg h2 hc (neg_cases hs) b
  rwa [neg_neg] at this

/-- Types of atoms are not changed by permuting the labels. -/
theorem type_slid (h2 : 2 ≤ c.nAtom) (hc : c.OK w bravais R) (hu : Uniform c)
    (hs : sign = 1 ∨ sign = -1) {t : ℕ → ℕ} (ht : ∀ j, Site c j → t (c.atom j) = c.atomType j) (b : ℕ) :
    t (slidLabel c sign b) = t b := by
  by_cases h : ∃ i, Site c i ∧ c.atom i = b
  · obtain ⟨i, hi, rfl⟩ := h
    have hn := nextSite_site h2 hs hi
    rw [slidLabel_atom hc hi, ht _ hn, ht _ hi]
    exact hu.atoms _ _ hn hi
  · rw [slidLabel_other fun i hi he => h ⟨i, hi, he.symm⟩]

theorem moved_slid (hc : c.OK w bravais R) (z : Conf) {i : ℤ} (hi : Site c i) :
    z ((moved c sign).atom i) = slid c sign z (c.atom i) := by
  unfold slid
  rw [moved_atom, slidLabel_atom hc hi]

/-- Energy of the new head before and after sliding. -/
theorem restE_slid (h2 : 2 ≤ c.nAtom) (hc : c.OK w bravais R) (hu : Uniform c)
    (hs : sign = 1 ∨ sign = -1) {t : ℕ → ℕ} (ht : ∀ j, Site c j → t (c.atom j) = c.atomType j)
    (z : Conf) : restE (slidWorld w c sign) (moved c sign) t sign (endId c sign) z =
      restE w c t sign (endId c sign) (slid c sign z) := by
  have hh := endId_site h2 hs
  have hb : beyond c sign (endId c sign) = ∅ := beyond_last c hs
  have hb' : beyond (moved c sign) sign (endId c sign) = ∅ := beyond_last (moved c sign) hs
  have hT := slidLabel_atom (sign := sign) hc hh.1
  have hmH : (moved c sign).atom (endId c sign) = slidLabel c sign (c.atom (endId c sign)) := by
    rw [moved_atom, hT]
  unfold restE
  rw [hb, hb']
  congr 1
  · congr 1
    · unfold pairWith
      simp only [Finset.sdiff_empty]
      symm
      refine Finset.sum_bij' (fun b _ => slidLabel c sign b) (fun b _ => slidLabel c (-sign) b)
        (fun b hb => slidLabel_mem h2 hc hs hb) (fun b hb => slidLabel_mem h2 hc (neg_cases hs) hb)
        (fun b _ => slidLabel_neg h2 hc hs b) (fun b _ => slidLabel_neg' h2 hc hs b) fun b _ => ?_
      rw [hmH]
      refine if_congr (not_congr ⟨fun e => by rw [e], fun e => ?_⟩) ?_ rfl
      · rw [← slidLabel_neg h2 hc hs b, e, slidLabel_neg h2 hc hs]
      · unfold pairE slidWorld slid
        simp only [slidLabel_neg h2 hc hs, type_slid h2 hc hu hs ht]
    · by_cases ha : hasAngle c sign (endId c sign) = true
      · have h3 := next_site hs hh.1 ha
        have ha' : hasAngle (moved c sign) sign (endId c sign) = true := ha
        rw [if_pos ha, if_pos ha', moved_slid hc z hh.1, moved_slid hc z hh.2, moved_slid hc z h3]
        rfl
      · have ha' : ¬ hasAngle (moved c sign) sign (endId c sign) = true := ha
        rw [if_neg ha, if_neg ha']
  · rw [moved_slid hc z hh.1, hmH, type_slid h2 hc hu hs ht]
    rfl

theorem lenOf_slid (h2 : 2 ≤ c.nAtom) (hc : c.OK w bravais R) (hs : sign = 1 ∨ sign = -1) (z : Conf) :
    lenOf (slidWorld w c sign) (moved c sign) sign (endId c sign) z =
      lenOf w c sign (endId c sign) (slid c sign z) := by
  have hh := endId_site h2 hs
  unfold lenOf
  rw [moved_slid hc z hh.1, moved_slid hc z hh.2]
  rfl

/-- Masks of atoms other than the tail are the same before and after sliding. -/
theorem masked_slid (ok : w.OK lengths bravais cutoff) (h2 : 2 ≤ c.nAtom) (hc : c.OK w bravais R)
    (hs : sign = 1 ∨ sign = -1) {bonded : Bool} (hm : Masks w c bonded) {a b : ℕ}
    (ha : a ≠ c.atom (endId c sign)) (hb : b ≠ c.atom (endId c sign)) :
    w.masked (slidLabel c sign a) (slidLabel c sign b) = w.masked a b := by
  have one : ∀ a b : ℕ, a ≠ c.atom (endId c sign) → b ≠ c.atom (endId c sign) →
      (∃ i, Site c i ∧ c.atom i = a) →
      w.masked (slidLabel c sign a) (slidLabel c sign b) = w.masked a b := by
    rintro a b ha hb ⟨i, hi, rfl⟩
    have hiH : i ≠ endId c sign := fun h => ha (by rw [h])
    have hn := nextSite_site h2 hs hi
    rw [Bool.eq_iff_iff, slidLabel_atom hc hi, hm _ hn, hm _ hi]
    refine and_congr_right fun _ => ?_
    have hni : nextSite c sign i = i + sign := by unfold nextSite; rw [if_neg hiH]
    rw [hni] at hn ⊢
    constructor
    · rintro ⟨j, hj, hij, he⟩
      have hb' := congrArg (slidLabel c (-sign)) he
      rw [slidLabel_neg h2 hc hs, slidLabel_atom hc hj] at hb'
      refine ⟨nextSite c (-sign) j, nextSite_site h2 (neg_cases hs) hj, ?_, hb'⟩
      have hjT : j ≠ endId c (-sign) := by
        intro h
        apply hb
        rw [hb', h]
        unfold nextSite
        rw [if_pos rfl, neg_neg]
      unfold nextSite
      rw [if_neg hjT]
      omega
    · rintro ⟨j, hj, hij, rfl⟩
      have hjH : j ≠ endId c sign := fun h => hb (by rw [h])
      refine ⟨j + sign, ?_, by omega, ?_⟩
      · have := nextSite_site h2 hs hj
        unfold nextSite at this
        rwa [if_neg hjH] at this
      · rw [slidLabel_atom hc hj]
        unfold nextSite
        rw [if_neg hjH]
  by_cases h : ∃ i, Site c i ∧ c.atom i = a
  · exact one a b ha hb h
  · by_cases h' : ∃ i, Site c i ∧ c.atom i = b
    · rw [ok.msymm, one b a hb ha h', ok.msymm]
    · rw [slidLabel_other fun i hi he => h ⟨i, hi, he.symm⟩,
        slidLabel_other fun i hi he => h' ⟨i, hi, he.symm⟩]

theorem beyond_one (h2 : 2 ≤ c.nAtom) (hs : sign = 1 ∨ sign = -1) :
    beyond c sign (endId c sign - sign) = {c.atom (endId c sign)} := by
  rw [beyond_step hs (endId_site h2 hs).1, beyond_last c hs]
  rfl

/-- The energy without the head of the slid chain is the energy without the tail. -/
theorem kept_slid (ok : w.OK lengths bravais cutoff) (hc : c.OK w bravais R) (hu : Uniform c)
    {l : List ℤ} (hl : Linear w c l) (hs : sign = 1 ∨ sign = -1) {bonded : Bool} (hm : Masks w c bonded)
    {t : ℕ → ℕ} (ht : ∀ j, Site c j → t (c.atom j) = c.atomType j) (z : Conf) :
    kept w c t sign (endId c sign - sign) (slid c sign z) =
      kept w c t (-sign) (endId c (-sign) - -sign) z := by
  have h2 := hu.two
  have hns := neg_cases hs
  have hA : ∀ b ∈ w.atoms \ {c.atom (endId c sign)},
      slidLabel c sign b ∈ w.atoms \ {c.atom (endId c (-sign))} := by
    intro b hb
    simp only [Finset.mem_sdiff, Finset.mem_singleton] at hb ⊢
    exact ⟨slidLabel_mem h2 hc hs hb.1, slidLabel_ne h2 hc hs hb.2⟩
  have hB : ∀ b ∈ w.atoms \ {c.atom (endId c (-sign))},
      slidLabel c (-sign) b ∈ w.atoms \ {c.atom (endId c sign)} := by
    intro b hb
    simp only [Finset.mem_sdiff, Finset.mem_singleton] at hb ⊢
    have := slidLabel_ne h2 hc hns hb.2
    rw [neg_neg] at this
    exact ⟨slidLabel_mem h2 hc hns hb.1, this⟩
  have hsym : ∀ p : Conf, ∀ x y, pairE w p t x y = pairE w p t y x := by
    intro p x y
    unfold pairE
    rw [ok.msymm, ok.dsymm, ok.psymm]
  have hsite : ∀ i, Site c i → i ≠ endId c sign → slid c sign z (c.atom i) = z (c.atom (i + sign)) := by
    intro i hi hne
    unfold slid
    rw [slidLabel_atom hc hi]
    unfold nextSite
    rw [if_neg hne]
  unfold kept
  rw [beyond_one h2 hs, beyond_one h2 hns]
  congr 1
  · congr 1
    · congr 1
      · unfold pairsOf
        refine pairs_relabel (hsym _) (hsym _) hA hB (fun a _ => slidLabel_neg h2 hc hs a)
          (fun a _ => slidLabel_neg' h2 hc hs a) fun a ha b hb => ?_
        simp only [Finset.mem_sdiff, Finset.mem_singleton] at ha hb
        unfold pairE slid
        rw [masked_slid ok h2 hc hs hm ha.2 hb.2, type_slid h2 hc hu hs ht, type_slid h2 hc hu hs ht]
      · refine Finset.sum_bij' (fun b _ => slidLabel c sign b) (fun b _ => slidLabel c (-sign) b)
          hA hB (fun b _ => slidLabel_neg h2 hc hs b) (fun b _ => slidLabel_neg' h2 hc hs b) fun b _ => ?_
        rw [type_slid h2 hc hu hs ht]
        rfl
    · refine Finset.sum_bij' (fun j _ => j + sign) (fun j _ => j - sign) ?_ ?_ (fun j _ => by ring)
        (fun j _ => by ring) ?_
      · intro j hj
        unfold bondsUpTo endId at *
        simp only [Finset.mem_filter, Finset.mem_Ico] at hj ⊢
        rcases hs with rfl | rfl <;> simp at * <;> omega
      · intro j hj
        unfold bondsUpTo endId at *
        simp only [Finset.mem_filter, Finset.mem_Ico] at hj ⊢
        rcases hs with rfl | rfl <;> simp at * <;> omega
      · intro j hj
        have hj' : Site c j ∧ Site c (j + 1) ∧ j ≠ endId c sign ∧ j + 1 ≠ endId c sign := by
          unfold bondsUpTo Site endId at *
          simp only [Finset.mem_filter, Finset.mem_Ico] at hj
          rcases hs with rfl | rfl <;> simp at * <;> omega
        unfold bondTerm
        rw [hsite j hj'.1 hj'.2.2.1, hsite (j + 1) hj'.2.1 hj'.2.2.2, hu.bonds j (j + sign)]
        congr 4
        ring_nf
  · by_cases ha : c.hasAngles = true
    · rw [if_pos ha, if_pos ha]
      refine Finset.sum_bij' (fun j _ => j + sign) (fun j _ => j - sign) ?_ ?_ (fun j _ => by ring)
        (fun j _ => by ring) ?_
      · intro j hj
        unfold anglesUpTo endId at *
        simp only [Finset.mem_filter, Finset.mem_Ico] at hj ⊢
        rcases hs with rfl | rfl <;> simp at * <;> omega
      · intro j hj
        unfold anglesUpTo endId at *
        simp only [Finset.mem_filter, Finset.mem_Ico] at hj ⊢
        rcases hs with rfl | rfl <;> simp at * <;> omega
      · intro j hj
        have hj' : Site c j ∧ Site c (j + 1) ∧ Site c (j + 2) ∧ j ≠ endId c sign ∧
            j + 1 ≠ endId c sign ∧ j + 2 ≠ endId c sign ∧ 0 ≤ j + sign ∧ j + sign + 2 < c.nAtom := by
          unfold anglesUpTo Site endId at *
          simp only [Finset.mem_filter, Finset.mem_Ico] at hj
          rcases hs with rfl | rfl <;> simp at * <;> omega
        obtain ⟨s0, s1, s2, n0, n1, n2, m0, m1⟩ := hj'
        unfold angleTerm angleCos
        rw [hsite j s0 n0, hsite (j + 1) s1 n1, hsite (j + 2) s2 n2,
          ← hl.types ha j s0.1 s2.2, ← hl.types ha (j + sign) m0 m1, hu.bonds j (j + sign),
          show j + 1 + sign = j + sign + 1 by ring, show j + 2 + sign = j + sign + 2 by ring]
    · rw [if_neg ha, if_neg ha]

/-- The energy in terms of an end of the chain. -/
theorem energy_end (ok : w.OK lengths bravais cutoff) (h2 : 2 ≤ c.nAtom) (hc : c.OK w bravais R)
    {l : List ℤ} (hl : Linear w c l) (hs : sign = 1 ∨ sign = -1) (t : ℕ → ℕ) {rest : Conf → ℝ}
    (hr : ∀ p, (w.bonded.map fun x => x.energy p).sum =
      ∑ j ∈ Finset.Ico 0 (c.nAtom - 1), bondTerm w c p j +
      (if c.hasAngles = true then ∑ j ∈ Finset.Ico 0 (c.nAtom - 2), angleTerm w c p j else 0) + rest p)
    (p : Conf) : energy w p t = restE w c t sign (endId c sign) p +
      bondTerm w c p (bondId sign (endId c sign)) + kept w c t sign (endId c sign - sign) p + rest p +
      (w.links.map fun x => x.energy p).sum + ∑ a ∈ w.atoms, w.tether a (p a) := by
  have hh := endId_site h2 hs
  rw [← kept_step ok hc hl t hs hh.1 hh.2]
  unfold energy kept
  rw [beyond_last c hs, Finset.sdiff_empty, hr p]
  have e1 : bondsUpTo c sign (endId c sign) = Finset.Ico 0 (c.nAtom - 1) := by
    unfold bondsUpTo endId
    ext j
    simp only [Finset.mem_filter, Finset.mem_Ico]
    rcases hs with rfl | rfl <;> simp <;> omega
  have e2 : anglesUpTo c sign (endId c sign) = Finset.Ico 0 (c.nAtom - 2) := by
    unfold anglesUpTo endId
    ext j
    simp only [Finset.mem_filter, Finset.mem_Ico]
    rcases hs with rfl | rfl <;> simp <;> omega
  rw [e1, e2]
  unfold pairsOf
  ring

/-- Indices of all atoms of the chain. -/
def sites (c : Chain) : List ℤ := ids 0 1 c.nAtom.toNat

theorem mem_sites {i : ℤ} : i ∈ sites c ↔ Site c i := by
  unfold sites Site
  rw [mem_ids]
  constructor
  · rintro ⟨k, hk, rfl⟩
    omega
  · intro h
    exact ⟨i.toNat, by omega, by omega⟩

/-- **Energies before and after sliding.**  `q` and `z` differ in the position of the tail atom. -/
theorem energy_slid (ok : w.OK lengths bravais cutoff) (hc : c.OK w bravais R) (hu : Uniform c)
    (hl : Linear w c (sites c)) (hs : sign = 1 ∨ sign = -1) {bonded : Bool} (hm : Masks w c bonded)
    {t : ℕ → ℕ} (ht : ∀ j, Site c j → t (c.atom j) = c.atomType j) {q z : Conf}
    (h : ∀ b, b ≠ c.atom (endId c (-sign)) → z b = q b) :
    energy w (slid c sign z) t - (restE w c t sign (endId c sign) (slid c sign z) +
        bondTerm w c (slid c sign z) (bondId sign (endId c sign))) =
      energy w q t - (restE w c t (-sign) (endId c (-sign)) q +
        bondTerm w c q (bondId (-sign) (endId c (-sign)))) := by
  have h2 := hu.two
  have hns := neg_cases hs
  obtain ⟨rest, hr1, hr2⟩ := hl.bonded
  have hoff : ∀ b, (∀ j, Site c j → b ≠ c.atom j) → slid c sign z b = q b := by
    intro b hb
    unfold slid
    rw [slidLabel_other hb]
    exact h b (hb _ (endId_site h2 hns).1)
  have hk : kept w c t sign (endId c sign - sign) (slid c sign z) =
      kept w c t (-sign) (endId c (-sign) - -sign) q := by
    rw [kept_slid ok hc hu hl hs hm ht]
    refine kept_congr hc t hns fun b hb => h b fun he => hb ?_
    rw [beyond_one h2 hns, he]
    simp
  have hrest : rest (slid c sign z) = rest q := hr1 _ _ hoff
  have hlinks : (w.links.map fun x => x.energy (slid c sign z)).sum =
      (w.links.map fun x => x.energy q).sum := by
    congr 1
    refine List.map_congr_left fun x hx => ok.links x hx _ _ fun a ha => hoff a fun j hj he => ?_
    exact hl.links x hx j (mem_sites.2 hj) (he ▸ ha)
  have hteth : ∑ a ∈ w.atoms, w.tether a (slid c sign z a) = ∑ a ∈ w.atoms, w.tether a (q a) := by
    refine Finset.sum_congr rfl fun a _ => ?_
    by_cases ha : ∃ i, Site c i ∧ a = c.atom i
    · obtain ⟨i, hi, rfl⟩ := ha
      rw [hl.tethers i (mem_sites.2 hi), hl.tethers i (mem_sites.2 hi)]
    · rw [hoff a fun j hj he => ha ⟨j, hj, he⟩]
  rw [energy_end ok h2 hc hl hs t hr2 (slid c sign z), energy_end ok h2 hc hl hns t hr2 q, hk, hrest,
    hlinks, hteth]
  ring

end

end Verif.Cfb
