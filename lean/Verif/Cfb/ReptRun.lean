/-
What `CfbReptateMove::move` computes: the labels of the slid chain, the junction factor, and the
positions after the move.
-/
import Verif.Cfb.ReptModel
import Verif.Cfb.Energy

set_option autoImplicit false

namespace Verif.Cfb

open Verif.Boundary Verif.McCellList Verif.McCell Verif.McMoves MeasureTheory
open Verif.Cpp
open Verif.Cpp.Out
open scoped ENNReal

variable {w : World} {lengths : Vec} {bravais : Fin 3 → Vec} {cutoff : ℝ}

/-! ### Labels of the slid chain -/

section Labels

variable {c : Chain} {sign : ℤ}

theorem endId_site (h2 : 2 ≤ c.nAtom) (hs : sign = 1 ∨ sign = -1) :
    Site c (endId c sign) ∧ Site c (endId c sign - sign) := by
  unfold Site endId
  rcases hs with rfl | rfl <;> simp <;> omega

theorem neg_cases (hs : sign = 1 ∨ sign = -1) : -sign = 1 ∨ -sign = -1 := by
  rcases hs with rfl | rfl <;> simp

theorem endId_ne (h2 : 2 ≤ c.nAtom) (hs : sign = 1 ∨ sign = -1) :
    endId c sign ≠ endId c (-sign) := by
  unfold endId
  rcases hs with rfl | rfl <;> simp <;> omega

/-- Index of the site that follows site `i`, cyclically. -/
def nextSite (c : Chain) (sign i : ℤ) : ℤ := if i = endId c sign then endId c (-sign) else i + sign

theorem moved_atom (i : ℤ) : (moved c sign).atom i = c.atom (nextSite c sign i) := by
  unfold moved nextSite
  dsimp only
  split <;> rfl

theorem nextSite_site (h2 : 2 ≤ c.nAtom) (hs : sign = 1 ∨ sign = -1) {i : ℤ} (hi : Site c i) :
    Site c (nextSite c sign i) := by
  unfold nextSite
  split
  · exact (endId_site h2 (neg_cases hs)).1
  · next h =>
    unfold Site endId at *
    rcases hs with rfl | rfl <;> simp at * <;> omega

theorem nextSite_neg (h2 : 2 ≤ c.nAtom) (hs : sign = 1 ∨ sign = -1) {i : ℤ} (hi : Site c i) :
    nextSite c (-sign) (nextSite c sign i) = i := by
  unfold nextSite Site endId at *
  rcases hs with rfl | rfl <;> simp <;> split_ifs <;> omega

/-- The label of the slid chain for the atom with label `b`. -/
noncomputable def slidLabel (c : Chain) (sign : ℤ) (b : ℕ) : ℕ := by
  classical exact if h : ∃ i, Site c i ∧ c.atom i = b then c.atom (nextSite c sign h.choose) else b

theorem slidLabel_atom {R : ℝ} (hc : c.OK w bravais R) {i : ℤ} (hi : Site c i) :
    slidLabel c sign (c.atom i) = c.atom (nextSite c sign i) := by
  have h : ∃ j, Site c j ∧ c.atom j = c.atom i := ⟨i, hi, rfl⟩
  unfold slidLabel
  rw [dif_pos h, hc.inj _ _ h.choose_spec.1 hi h.choose_spec.2]

theorem slidLabel_other {b : ℕ} (h : ∀ i, Site c i → b ≠ c.atom i) : slidLabel c sign b = b := by
  unfold slidLabel
  rw [dif_neg]
  rintro ⟨i, hi, rfl⟩
  exact h i hi rfl

theorem slidLabel_neg (h2 : 2 ≤ c.nAtom) {R : ℝ} (hc : c.OK w bravais R)
    (hs : sign = 1 ∨ sign = -1) (b : ℕ) : slidLabel c (-sign) (slidLabel c sign b) = b := by
  by_cases h : ∃ i, Site c i ∧ c.atom i = b
  · obtain ⟨i, hi, rfl⟩ := h
    rw [slidLabel_atom hc hi, slidLabel_atom hc (nextSite_site h2 hs hi), nextSite_neg h2 hs hi]
  · have h' : ∀ i, Site c i → b ≠ c.atom i := fun i hi he => h ⟨i, hi, he.symm⟩
    rw [slidLabel_other h', slidLabel_other h']

theorem slidLabel_mem {R : ℝ} (h2 : 2 ≤ c.nAtom) (hc : c.OK w bravais R)
    (hs : sign = 1 ∨ sign = -1) {b : ℕ} (hb : b ∈ w.atoms) : slidLabel c sign b ∈ w.atoms := by
  by_cases h : ∃ i, Site c i ∧ c.atom i = b
  · obtain ⟨i, hi, rfl⟩ := h
    rw [slidLabel_atom hc hi]
    exact hc.mem _ (nextSite_site h2 hs hi)
  · rw [slidLabel_other fun i hi he => h ⟨i, hi, he.symm⟩]
    exact hb

/-- Masks during the move: those of the slid chain. -/
noncomputable def slidWorld (w : World) (c : Chain) (sign : ℤ) : World :=
  { w with masked := fun a b => w.masked (slidLabel c (-sign) a) (slidLabel c (-sign) b) }

/-- Masks of the atoms of the chain: neighbours, if bonded pairs are masked, and no other atoms. -/
def Masks (w : World) (c : Chain) (bonded : Bool) : Prop :=
  ∀ i, Site c i → ∀ b, w.masked (c.atom i) b = true ↔
    bonded = true ∧ ∃ j, Site c j ∧ (j = i + 1 ∨ j = i - 1) ∧ b = c.atom j

theorem slidWorld_ok (ok : w.OK lengths bravais cutoff) :
    (slidWorld w c sign).OK lengths bravais cutoff where
  geo := ok.geo
  dist := ok.dist
  dsymm := ok.dsymm
  cut := ok.cut
  range := ok.range
  psymm := ok.psymm
  msymm _ _ := ok.msymm _ _
  molMem := ok.molMem
  molAll := ok.molAll
  molNodup := ok.molNodup
  bonded := ok.bonded
  links := ok.links

theorem nextSite_inj (h2 : 2 ≤ c.nAtom) (hs : sign = 1 ∨ sign = -1) {i j : ℤ} (hi : Site c i)
    (hj : Site c j) (h : nextSite c sign i = nextSite c sign j) : i = j := by
  rw [← nextSite_neg h2 hs hi, h, nextSite_neg h2 hs hj]

theorem moved_ok {R : ℝ} (h2 : 2 ≤ c.nAtom) (hc : c.OK w bravais R) (hs : sign = 1 ∨ sign = -1) :
    (moved c sign).OK (slidWorld w c sign) bravais R where
  pos := hc.pos
  wide := hc.wide
  exact := hc.exact
  wraps := hc.wraps
  inj i j hi hj h := by
    rw [moved_atom, moved_atom] at h
    exact nextSite_inj h2 hs hi hj
      (hc.inj _ _ (nextSite_site h2 hs hi) (nextSite_site h2 hs hj) h)
  mem i hi := by
    rw [moved_atom]
    exact hc.mem _ (nextSite_site h2 hs hi)
  image := hc.image
  normSq := hc.normSq

/-- The tail atom stands for the new head, whose mask contains the present head. -/
theorem slid_row {R : ℝ} (h2 : 2 ≤ c.nAtom) (hc : c.OK w bravais R) (hs : sign = 1 ∨ sign = -1)
    {bonded : Bool} (hm : Masks w c bonded) :
    (slidWorld w c sign).masked (c.atom (endId c (-sign))) =
      fun x => bonded && decide (x = c.atom (endId c sign)) := by
  have hns := neg_cases hs
  have hh := endId_site h2 hs
  have ht := endId_site h2 hns
  have e1 : slidLabel c (-sign) (c.atom (endId c (-sign))) = c.atom (endId c sign) := by
    rw [slidLabel_atom hc ht.1]
    unfold nextSite
    rw [if_pos rfl, neg_neg]
  funext x
  rw [Bool.eq_iff_iff]
  change w.masked (slidLabel c (-sign) (c.atom (endId c (-sign)))) (slidLabel c (-sign) x) = true ↔ _
  rw [e1, hm _ hh.1]
  simp only [Bool.and_eq_true, decide_eq_true_eq]
  refine and_congr_right fun _ => ?_
  have e2 : c.atom (endId c sign) = slidLabel c sign (c.atom (endId c sign - sign)) := by
    rw [slidLabel_atom hc hh.2]
    unfold nextSite
    rw [if_neg (by rcases hs with rfl | rfl <;> simp)]
    congr 1
    ring
  constructor
  · rintro ⟨j, hj, hn, he⟩
    have hje : j = endId c sign - sign := by
      unfold Site endId at *
      rcases hs with rfl | rfl <;> simp at * <;> omega
    rw [e2, ← hje, ← he]
    have := slidLabel_neg h2 hc hns x
    rw [neg_neg] at this
    exact this.symm
  · rintro rfl
    refine ⟨endId c sign - sign, hh.2, by rcases hs with rfl | rfl <;> simp, ?_⟩
    rw [e2, slidLabel_neg h2 hc hs]

/-- The mask of the tail atom is restored. -/
theorem retie_back (h2 : 2 ≤ c.nAtom) (hs : sign = 1 ∨ sign = -1)
    {bonded : Bool} (hm : Masks w c bonded) (b : ℕ) :
    retie (retie w (c.atom (endId c (-sign))) b bonded) (c.atom (endId c (-sign)))
      (c.atom (endId c (-sign) + sign)) bonded = w := by
  have ht := endId_site h2 (neg_cases hs)
  rw [sub_neg_eq_add] at ht
  unfold retie
  simp only [Function.update_idem]
  have : (fun x => bonded && decide (x = c.atom (endId c (-sign) + sign))) =
      w.masked (c.atom (endId c (-sign))) := by
    funext x
    rw [Bool.eq_iff_iff, hm _ ht.1]
    simp only [Bool.and_eq_true, decide_eq_true_eq]
    refine and_congr_right fun _ => ?_
    constructor
    · rintro rfl
      exact ⟨_, ht.2, by rcases hs with rfl | rfl <;> simp [sub_eq_add_neg], rfl⟩
    · rintro ⟨j, hj, hn, rfl⟩
      congr 1
      unfold Site endId at *
      rcases hs with rfl | rfl <;> simp at * <;> omega
  rw [this, Function.update_eq_self]

end Labels

/-! ### Masks of one atom -/

theorem atomPair_row {m m' : ℕ → ℕ → Bool} {a : ℕ} (h : m a = m' a) (s : Sys) :
    atomPair { w with masked := m } s a = atomPair { w with masked := m' } s a := by
  have : ∀ b, atomPairOne { w with masked := m } s a b = atomPairOne { w with masked := m' } s a b := by
    intro b
    unfold atomPairOne
    simp only [h]
    rfl
  unfold atomPair
  rw [show atomPairOne { w with masked := m } s a = atomPairOne { w with masked := m' } s a from
    funext this]
  rfl

theorem trialE_row {m m' : ℕ → ℕ → Bool} {c : Chain} {sign i : ℤ} (h : m (c.atom i) = m' (c.atom i))
    (s : Sys) (u : Vec) : trialE { w with masked := m } c s sign i u =
      trialE { w with masked := m' } c s sign i u := by
  unfold trialE
  rw [atomPair_row h]
  rfl

theorem addAtom_row {m m' : ℕ → ℕ → Bool} {c : Chain} {sign i : ℤ} (h : m (c.atom i) = m' (c.atom i))
    (r : ℝ) (us : List Vec) (roll : ℝ) (s : Sys) : addAtom { w with masked := m } c sign i r us roll s =
      addAtom { w with masked := m' } c sign i r us roll s := by
  have ht : trials { w with masked := m } c sign i r us s =
      trials { w with masked := m' } c sign i r us s := by
    unfold trials
    simp only [trialE_row h]
    rfl
  unfold addAtom
  rw [ht]

/-! ### The junction factor -/

theorem headSide_site {c : Chain} {sign : ℤ} (hs : sign = 1 ∨ sign = -1) {j : ℤ}
    (hj : j ∈ junctions c) : Site c (headSide sign j) ∧ headSide sign j ≠ endId c (-sign) := by
  unfold junctions at hj
  rw [List.mem_filter] at hj
  obtain ⟨k, hk, rfl⟩ := mem_ids.1 hj.1
  unfold Site headSide endId
  rcases hs with rfl | rfl <;> simp <;> omega

/-- Without the tail, the atoms whose types change do not interact with others. -/
def Blind (w : World) (c : Chain) (sign : ℤ) : Prop :=
  ∀ j ∈ junctions c, ∀ (p : Conf) (t : ℕ → ℕ),
    atomPairE (sub w {c.atom (endId c (-sign))}) p t (c.atom (headSide sign j)) +
      w.ext (p (c.atom (headSide sign j))) (t (c.atom (headSide sign j))) = 0

theorem blind_nil {c : Chain} {sign : ℤ} (h : junctions c = []) : Blind w c sign := by
  intro j hj
  rw [h] at hj
  cases hj

/-- Energy of the pairs and of the external field of the atoms other than `a`. -/
noncomputable def restOf (w : World) (a : ℕ) (p : Conf) (t : ℕ → ℕ) : ℝ :=
  (∑ x ∈ w.atoms \ {a}, ∑ y ∈ w.atoms \ {a}, if x < y then pairE w p t x y else 0) +
    ∑ x ∈ w.atoms \ {a}, w.ext (p x) (t x)

theorem restOf_congr {a : ℕ} {p p' : Conf} {t t' : ℕ → ℕ} (hp : ∀ b ∈ w.atoms, b ≠ a → p b = p' b)
    (ht : ∀ b ∈ w.atoms, b ≠ a → t b = t' b) : restOf w a p t = restOf w a p' t' := by
  unfold restOf
  congr 1
  · refine Finset.sum_congr rfl fun x hx => Finset.sum_congr rfl fun y hy => ?_
    simp only [Finset.mem_sdiff, Finset.mem_singleton] at hx hy
    unfold pairE
    rw [hp x hx.1 hx.2, hp y hy.1 hy.2, ht x hx.1 hx.2, ht y hy.1 hy.2]
  · refine Finset.sum_congr rfl fun x hx => ?_
    simp only [Finset.mem_sdiff, Finset.mem_singleton] at hx
    rw [hp x hx.1 hx.2, ht x hx.1 hx.2]

theorem restOf_retype (ok : w.OK lengths bravais cutoff) {a b : ℕ} (hb : b ∈ w.atoms) (hba : b ≠ a)
    (p : Conf) (t : ℕ → ℕ) (x : ℕ) :
    restOf w a p (Function.update t b x) - restOf w a p t =
      (atomPairE (sub w {a}) p (Function.update t b x) b +
        w.ext (p b) (Function.update t b x b)) -
      (atomPairE (sub w {a}) p t b + w.ext (p b) (t b)) := by
  have ok' := sub_ok ok {a}
  have hb' : b ∈ (sub w {a}).atoms := by
    simp only [sub, Finset.mem_sdiff, Finset.mem_singleton]
    exact ⟨hb, hba⟩
  obtain ⟨t', ht'⟩ : ∃ t', t' = Function.update t b x := ⟨_, rfl⟩
  have ho : ∀ c, c ≠ b → t c = t' c := fun c hc => by rw [ht', Function.update_of_ne hc]
  have h1 := sum_diff_one (w.atoms \ {a}) hb' (fun c => w.ext (p c) (t c)) (fun c => w.ext (p c) (t' c))
    (fun c hc => by simp only [ho c hc])
  have h2 : (∑ x ∈ w.atoms \ {a}, ∑ y ∈ w.atoms \ {a}, if x < y then pairE w p t' x y else 0) -
      (∑ x ∈ w.atoms \ {a}, ∑ y ∈ w.atoms \ {a}, if x < y then pairE w p t x y else 0) =
      atomPairE (sub w {a}) p t' b - atomPairE (sub w {a}) p t b := by
    have e1 := split_pairs (sub w {a}).atoms {b} _ (pairE_symm ok' p t')
    have e2 := split_pairs (sub w {a}).atoms {b} _ (pairE_symm ok' p t)
    rw [← atomPairE_split (sub w {a}) p t' hb'] at e1
    rw [← atomPairE_split (sub w {a}) p t hb'] at e2
    have e3 : (∑ x ∈ (sub w {a}).atoms, ∑ y ∈ (sub w {a}).atoms,
        if x ∉ ({b} : Finset ℕ) ∧ y ∉ ({b} : Finset ℕ) ∧ x < y then pairE (sub w {a}) p t' x y else 0) =
        ∑ x ∈ (sub w {a}).atoms, ∑ y ∈ (sub w {a}).atoms,
        if x ∉ ({b} : Finset ℕ) ∧ y ∉ ({b} : Finset ℕ) ∧ x < y then pairE (sub w {a}) p t x y else 0 := by
      refine Finset.sum_congr rfl fun x _ => Finset.sum_congr rfl fun y _ => ?_
      split
      · next h =>
        simp only [Finset.mem_singleton] at h
        unfold pairE
        rw [ho x h.1, ho y h.2.1]
      · rfl
    change (∑ x ∈ (sub w {a}).atoms, ∑ y ∈ (sub w {a}).atoms,
        if x < y then pairE (sub w {a}) p t' x y else 0) - (∑ x ∈ (sub w {a}).atoms,
        ∑ y ∈ (sub w {a}).atoms, if x < y then pairE (sub w {a}) p t x y else 0) = _
    linarith
  rw [← ht']
  unfold restOf
  linarith

/-- `t'` are the types `t` with those of the chain shifted by one atom towards the head (the type of
the tail does not matter). -/
def Shifts (c : Chain) (sign : ℤ) (t t' : ℕ → ℕ) : Prop :=
  (∀ j, Site c j → j ≠ endId c (-sign) → t' (c.atom j) = c.atomType (j - sign)) ∧
    ∀ b, (∀ j, Site c j → b ≠ c.atom j) → t' b = t b

theorem junction_iff {c : Chain} {sign : ℤ} (hs : sign = 1 ∨ sign = -1) {j : ℤ} (hj : Site c j)
    (hjt : j ≠ endId c (-sign)) : (∃ i ∈ junctions c, headSide sign i = j ∧ tailSide sign i = j - sign) ∨
      (c.atomType j = c.atomType (j - sign) ∧ ∀ i ∈ junctions c, headSide sign i ≠ j) := by
  have key : ∀ i : ℤ, i ∈ junctions c ↔ (0 ≤ i ∧ i + 1 < c.nAtom) ∧ c.atomType i ≠ c.atomType (i + 1) := by
    intro i
    unfold junctions
    rw [List.mem_filter, mem_ids, decide_eq_true_eq]
    refine and_congr_left fun _ => ?_
    constructor
    · rintro ⟨k, hk, rfl⟩; omega
    · intro h; exact ⟨i.toNat, by omega, by omega⟩
  have h0 := hj.1
  have h1 := hj.2
  rcases hs with rfl | rfl
  · have hne : j ≠ 0 := by simpa [endId] using hjt
    by_cases h : c.atomType (j - 1) = c.atomType j
    · refine Or.inr ⟨h.symm, fun i hi e => ?_⟩
      rw [headSide, if_pos rfl] at e
      subst e
      exact ((key i).1 hi).2 (by rw [add_sub_cancel_right] at h; exact h)
    · refine Or.inl ⟨j - 1, (key _).2 ⟨by omega, by rw [sub_add_cancel]; exact h⟩, ?_, ?_⟩
      · rw [headSide, if_pos rfl]; ring
      · rw [tailSide, if_pos rfl]
  · have hne : j ≠ c.nAtom - 1 := by simpa [endId] using hjt
    by_cases h : c.atomType j = c.atomType (j + 1)
    · refine Or.inr ⟨by rw [sub_neg_eq_add]; exact h, fun i hi e => ?_⟩
      rw [headSide, if_neg (by norm_num)] at e
      subst e
      exact ((key i).1 hi).2 h
    · refine Or.inl ⟨j, (key _).2 ⟨by omega, h⟩, ?_, ?_⟩
      · rw [headSide, if_neg (by norm_num)]
      · rw [tailSide, if_neg (by norm_num)]; ring

theorem junctions_nodup (c : Chain) : (junctions c).Nodup := by
  unfold junctions
  refine List.Nodup.filter _ ?_
  exact (ids_pairwise (Or.inl rfl) 0 _).imp fun h => by omega

theorem junctionFactor_ok (ok : w.OK lengths bravais cutoff) {c : Chain} {R : ℝ}
    (hc : c.OK w bravais R) (h2 : 2 ≤ c.nAtom) {sign : ℤ} (hs : sign = 1 ∨ sign = -1)
    {m : ℕ → ℕ → Bool} (hm : ∀ a, a ≠ c.atom (endId c (-sign)) → m a = w.masked a) {s : Sys} {q : Conf}
    (h : At (sub w {c.atom (endId c (-sign))}) lengths cutoff s.cells q)
    (hcell : ∀ b ∈ w.atoms, s.pos b ∈ cell w.gen)
    (hq : ∀ b ∈ w.atoms, b ≠ c.atom (endId c (-sign)) → q b = s.pos b)
    (ht : ∀ j, Site c j → j ≠ endId c (-sign) → s.typ (c.atom j) = c.atomType j) :
    ∃ f, 0 < f ∧ (Blind w c sign → f = 1) ∧
      (∀ t', Shifts c sign s.typ t' → f = Real.exp (-w.beta *
        (restOf w (c.atom (endId c (-sign))) s.pos t' - restOf w (c.atom (endId c (-sign))) s.pos s.typ))) ∧
      junctionFactor { w with masked := m } c sign s = .ok (s, f) := by
  have htail := (endId_site h2 (neg_cases hs)).1
  have hE : ∀ (τ : ℕ → ℕ) (j : ℤ), j ∈ junctions c → ∃ E, (Blind w c sign → E = 0) ∧
      E = atomPairE (sub w {c.atom (endId c (-sign))}) s.pos τ (c.atom (headSide sign j)) +
        w.ext (s.pos (c.atom (headSide sign j))) (τ (c.atom (headSide sign j))) ∧
      typeE { w with masked := m } { s with typ := τ } (c.atom (headSide sign j)) = .ok E := by
    intro τ j hj
    obtain ⟨h1, h3⟩ := headSide_site hs hj
    have hne : c.atom (headSide sign j) ≠ c.atom (endId c (-sign)) := fun he =>
      h3 (hc.inj _ _ h1 htail he)
    have e1 := atomPair_ok (sub_ok ok {c.atom (endId c (-sign))}) (s := { s with typ := τ })
      (a := c.atom (headSide sign j)) h (hcell _ (hc.mem _ h1)) (fun b hb _ _ => by
        simp only [sub, Finset.mem_sdiff, Finset.mem_singleton] at hb
        exact hq b hb.1 hb.2)
    have e2 : atomPair { w with masked := m } { s with typ := τ } (c.atom (headSide sign j)) =
        atomPair (sub w {c.atom (endId c (-sign))}) { s with typ := τ } (c.atom (headSide sign j)) :=
      atomPair_row (w := w) (m' := w.masked) (hm _ hne) _
    unfold typeE
    rw [e2, e1]
    exact ⟨_, fun hb => hb j hj s.pos τ, rfl, rfl⟩
  have first : ∀ (l : List ℤ), l.Nodup → (∀ j ∈ l, j ∈ junctions c) → ∀ (τ : ℕ → ℕ) (f : ℝ), 0 < f →
      ∃ τ' f', 0 < f' ∧ (Blind w c sign → f' = f) ∧
        (f' = f * Real.exp (-w.beta * (restOf w (c.atom (endId c (-sign))) s.pos τ' -
          restOf w (c.atom (endId c (-sign))) s.pos τ))) ∧
        (∀ j ∈ l, τ' (c.atom (headSide sign j)) = c.atomType (tailSide sign j)) ∧ Out.loop (fun (st : Sys × ℝ) j => do
        let h := c.atom (headSide sign j)
        let old ← typeE { w with masked := m } st.1 h
        let s2 := st.1.setTyp h (c.atomType (tailSide sign j))
        let new ← typeE { w with masked := m } s2 h
        Out.ok (s2, st.2 * boltzmann { w with masked := m } (new - old))) l ({ s with typ := τ }, f) =
        .ok ({ s with typ := τ' }, f') ∧
        ∀ b, b ∉ l.map (fun j => c.atom (headSide sign j)) → τ' b = τ b := by
    intro l
    induction l with
    | nil => intro _ _ τ f hf; exact ⟨τ, f, hf, fun _ => rfl, by simp, by simp, rfl, fun _ _ => rfl⟩
    | cons j l ih =>
      intro hnd hl τ f hf
      rw [List.nodup_cons] at hnd
      obtain ⟨E1, hB1, hV1, hE1⟩ := hE τ j (hl j List.mem_cons_self)
      obtain ⟨E2, hB2, hV2, hE2⟩ := hE (Function.update τ (c.atom (headSide sign j))
        (c.atomType (tailSide sign j))) j (hl j List.mem_cons_self)
      obtain ⟨τ', f', hf', hB, hV, hτ, e1, e2⟩ := ih hnd.2 (fun i hi => hl i (List.mem_cons_of_mem _ hi))
        (Function.update τ (c.atom (headSide sign j)) (c.atomType (tailSide sign j)))
        (f * boltzmann { w with masked := m } (E2 - E1)) (mul_pos hf (Real.exp_pos _))
      obtain ⟨hj1, hj3⟩ := headSide_site hs (hl j List.mem_cons_self)
      refine ⟨τ', f', hf', fun hb => ?_, ?_, ?_, ?_, ?_⟩
      · rw [hB hb, hB1 hb, hB2 hb]
        simp [boltzmann]
      · have hr := restOf_retype ok (hc.mem _ hj1) (fun he => hj3 (hc.inj _ _ hj1 htail he)) s.pos τ
          (c.atomType (tailSide sign j))
        rw [← hV1, ← hV2] at hr
        rw [hV, mul_assoc]
        congr 1
        unfold boltzmann
        dsimp only
        rw [← hr, ← Real.exp_add]
        congr 1
        ring
      · intro i hi
        rcases List.mem_cons.1 hi with rfl | hi
        · rw [e2 _ fun hmem => ?_, Function.update_self]
          obtain ⟨k, hk, hke⟩ := List.mem_map.1 hmem
          obtain ⟨hk1, -⟩ := headSide_site hs (hl k (List.mem_cons_of_mem _ hk))
          have := hc.inj _ _ hk1 hj1 hke
          have hki : k = i := by
            unfold headSide at this
            split at this <;> omega
          exact hnd.1 (hki ▸ hk)
        · exact hτ i hi
      · rw [loop_cons]
        dsimp only
        rw [hE1, ok_bind, hE2, ok_bind, ok_bind]
        exact e1
      · intro b hb
        simp only [List.map_cons, List.mem_cons, not_or] at hb
        rw [e2 b hb.2, Function.update_of_ne hb.1]
  have second : ∀ (l : List ℤ), (∀ j ∈ l, j ∈ junctions c) → ∀ (τ : ℕ → ℕ),
      (∀ b, b ∉ l.map (fun j => c.atom (headSide sign j)) → τ b = s.typ b) →
      Out.loop (fun (s : Sys) j =>
        Out.ok (s.setTyp (c.atom (headSide sign j)) (c.atomType (headSide sign j)))) l
        { s with typ := τ } = .ok s := by
    intro l
    induction l with
    | nil =>
      intro _ τ h
      have : τ = s.typ := funext fun b => h b (by simp)
      rw [this]
      rfl
    | cons j l ih =>
      intro hl τ h
      rw [loop_cons, ok_bind]
      refine ih (fun i hi => hl i (List.mem_cons_of_mem _ hi)) _ fun b hb => ?_
      obtain ⟨h1, h3⟩ := headSide_site hs (hl j List.mem_cons_self)
      by_cases hbj : b = c.atom (headSide sign j)
      · rw [hbj, Function.update_self, ht _ h1 h3]
      · rw [Function.update_of_ne hbj]
        exact h b (by simp only [List.map_cons, List.mem_cons, not_or]; exact ⟨hbj, hb⟩)
  obtain ⟨τ', f', hf', hB, hV, hτ, e1, e2⟩ := first (junctions c) (junctions_nodup c) (fun _ h => h)
    s.typ 1 one_pos
  refine ⟨f', hf', hB, fun t' hsh => ?_, ?_⟩
  · rw [hV, one_mul, restOf_congr (t := τ') (t' := t') (fun _ _ _ => rfl) fun b hb hbt => ?_]
    by_cases hbc : ∃ j, Site c j ∧ b = c.atom j
    · obtain ⟨j, hj, rfl⟩ := hbc
      have hjt : j ≠ endId c (-sign) := fun h => hbt (by rw [h])
      rw [hsh.1 j hj hjt]
      rcases junction_iff hs hj hjt with ⟨i, hi, hi1, hi2⟩ | ⟨hty, hno⟩
      · rw [← hi1, hτ i hi, hi2, hi1]
      · rw [e2 _ fun hmem => ?_, ht j hj hjt, hty]
        obtain ⟨k, hk, hke⟩ := List.mem_map.1 hmem
        exact hno k hk (hc.inj _ _ (headSide_site hs hk).1 hj hke)
    · push Not at hbc
      rw [hsh.2 b hbc, e2 b fun hmem => ?_]
      obtain ⟨k, hk, hke⟩ := List.mem_map.1 hmem
      exact hbc _ (headSide_site hs hk).1 hke.symm
  unfold junctionFactor
  have e3 := second (junctions c) (fun _ h => h) τ' e2
  have e1' : Out.loop _ (junctions c) (s, (1 : ℝ)) = _ := e1
  rw [e1', ok_bind]
  dsimp only
  rw [e3, ok_bind]

/-! ### Sliding -/

theorem slide_loop (hcap : w.atoms.card < w.cellCap) {c : Chain} {R : ℝ} (hc : c.OK w bravais R)
    {sign : ℤ} (hs : sign = 1 ∨ sign = -1) {n : ℕ} : ∀ {i : ℤ} {s : Sys},
    (∀ j ∈ ids i sign n, Site c j ∧ Site c (j + sign)) → At w lengths cutoff s.cells s.pos →
    ∃ s', Out.loop (fun (s : Sys) i =>
        updateCell w (s.setPos (c.atom i) (s.pos (c.atom (i + sign)))) (c.atom i)) (ids i sign n) s =
        .ok s' ∧
      At w lengths cutoff s'.cells s'.pos ∧ { s' with pos := s.pos, cells := s.cells } = s ∧
      (∀ j ∈ ids i sign n, s'.pos (c.atom j) = s.pos (c.atom (j + sign))) ∧
      ∀ b, b ∉ (ids i sign n).map c.atom → s'.pos b = s.pos b := by
  induction n with
  | zero => intro i s _ h; exact ⟨s, rfl, h, rfl, by simp [ids], fun _ _ => rfl⟩
  | succ n ih =>
    intro i s hsites h
    obtain ⟨hi, hi'⟩ := hsites i (by simp [ids])
    have hu : InUnit (w.gen (s.pos (c.atom (i + sign)))) := h.unit (hc.mem _ hi')
    obtain ⟨cl, e1, e2⟩ := updateCell_ok
      (s := s.setPos (c.atom i) (s.pos (c.atom (i + sign)))) (a := c.atom i) h (hc.mem _ hi)
      (by simp only [Function.update_self]; exact hu) (fits_one hcap _ _)
    simp only [Function.update_self] at e2
    obtain ⟨s', f1, f2, f3, f4, f5⟩ := ih (i := i + sign)
      (s := { s.setPos (c.atom i) (s.pos (c.atom (i + sign))) with cells := cl })
      (fun j hj => hsites j (by simp [ids, hj])) e2
    have hnot : ∀ j ∈ ids (i + sign) sign n, j ≠ i ∧ j + sign ≠ i := by
      intro j hj
      obtain ⟨k, hk, rfl⟩ := mem_ids.1 hj
      rcases hs with rfl | rfl <;> omega
    refine ⟨s', ?_, f2, ?_, ?_, ?_⟩
    · simp only [ids]
      rw [loop_cons, e1, ok_bind]
      exact f1
    · exact congrArg (fun x : Sys => { x with pos := s.pos, cells := s.cells }) f3
    · intro j hj
      simp only [ids, List.mem_cons] at hj
      rcases hj with rfl | hj
      · rw [f5]
        · exact Function.update_self _ _ _
        · rw [List.mem_map]
          rintro ⟨k, hk, he⟩
          have hk' := (hsites k (by simp [ids, hk])).1
          exact (hnot k hk).1 (hc.inj _ _ hk' hi he)
      · rw [f4 j hj]
        refine Function.update_of_ne (fun he => ?_) _ _
        exact (hnot j hj).2 (hc.inj _ _ (hsites j (by simp [ids, hj])).2 hi he)
    · intro b hb
      simp only [ids, List.map_cons, List.mem_cons, not_or] at hb
      rw [f5 b hb.2]
      exact Function.update_of_ne hb.1 _ _

theorem slide_true (hcap : w.atoms.card < w.cellCap) {c : Chain} {R : ℝ}
    (hc : c.OK w bravais R) (h2 : 2 ≤ c.nAtom) {sign : ℤ} (hs : sign = 1 ∨ sign = -1)
    {s : Sys} {q : Conf} (h : At (sub w {c.atom (endId c (-sign))}) lengths cutoff s.cells q)
    (hcell : ∀ b ∈ w.atoms, s.pos b ∈ cell w.gen)
    (hq : ∀ b ∈ w.atoms, b ≠ c.atom (endId c (-sign)) → q b = s.pos b) (oldPos : Vec) :
    ∃ s', slide w c sign oldPos s true = .ok (s', true) ∧ At w lengths cutoff s'.cells s'.pos ∧
      { s' with pos := s.pos, cells := s.cells } = s.accept ∧
      s'.pos = fun b => s.pos (slidLabel c sign b) := by
  obtain ⟨T, hT⟩ : ∃ T, T = endId c (-sign) := ⟨_, rfl⟩
  obtain ⟨H, hH⟩ : ∃ H, H = endId c sign := ⟨_, rfl⟩
  have hne := endId_ne h2 hs
  have hts := endId_site h2 (neg_cases hs)
  have hhs := (endId_site h2 hs).1
  rw [sub_neg_eq_add] at hts
  rw [← hT] at h hq hts hne
  rw [← hH] at hhs hne
  have hr : s.pos (c.atom (T + sign)) ∈ cell w.gen := hcell _ (hc.mem _ hts.2)
  obtain ⟨cl, e1, e2⟩ := cells_add (w := w) (T := ∅) (cl := s.cells) (q := q)
    (a := c.atom T) (r := s.pos (c.atom (T + sign))) (by simpa using h) (hc.mem _ hts.1) (by simp) hr hcap
  rw [sub_empty] at e2
  have e3 := e2.congr (q' := Function.update s.pos (c.atom T) (s.pos (c.atom (T + sign)))) (by
    intro b hb
    by_cases hbT : b = c.atom T
    · rw [hbT, Function.update_self, Function.update_self]
    · rw [Function.update_of_ne hbT, Function.update_of_ne hbT, hq b hb hbT])
  have hsites : ∀ j ∈ ids (T + sign) sign (c.nAtom - 2).toNat,
      Site c j ∧ Site c (j + sign) ∧ j ≠ T ∧ j ≠ H ∧ j + sign ≠ T := by
    intro j hj
    obtain ⟨k, hk, rfl⟩ := mem_ids.1 hj
    rw [hT, hH]
    unfold Site endId
    rcases hs with rfl | rfl <;> simp <;> omega
  obtain ⟨s2, f1, f2, f3, f4, f5⟩ := slide_loop hcap hc hs (i := T + sign)
    (n := (c.nAtom - 2).toNat)
    (s := { s.setPos (c.atom T) (s.pos (c.atom (T + sign))) with cells := cl })
    (fun j hj => ⟨(hsites j hj).1, (hsites j hj).2.1⟩) e3
  obtain ⟨cl', g1, g2⟩ := updateCell_ok (s := s2.setPos (c.atom H) (s.pos (c.atom T)))
    (a := c.atom H) f2 (hc.mem _ hhs)
    (by simp only [Function.update_self]; exact hcell _ (hc.mem _ hts.1)) (fits_one hcap _ _)
  simp only [Function.update_self] at g2
  refine ⟨({ s2.setPos (c.atom H) (s.pos (c.atom T)) with cells := cl' } : Sys).accept, ?_, g2, ?_, ?_⟩
  · unfold slide
    dsimp only
    rw [← hT, ← hH, Function.update_self, e1, ok_bind]
    have f1' : Out.loop _ _ _ = _ := f1
    rw [f1', ok_bind, g1, ok_bind]
  · exact congrArg (fun x : Sys => { x with pos := s.pos, cells := s.cells, nAccept := x.nAccept + 1 }) f3
  · funext b
    change Function.update s2.pos (c.atom H) (s.pos (c.atom T)) b = s.pos (slidLabel c sign b)
    by_cases hb : ∃ i, Site c i ∧ c.atom i = b
    · obtain ⟨i, hi, rfl⟩ := hb
      rw [slidLabel_atom hc hi]
      unfold nextSite
      rw [← hH, ← hT]
      by_cases hiH : i = H
      · rw [if_pos hiH, hiH, Function.update_self]
      · rw [if_neg hiH, Function.update_of_ne fun he => hiH (hc.inj _ _ hi hhs he)]
        by_cases hiT : i = T
        · rw [hiT, f5]
          · exact Function.update_self _ _ _
          · rw [List.mem_map]
            rintro ⟨k, hk, he⟩
            exact (hsites k hk).2.2.1 (hc.inj _ _ (hsites k hk).1 hts.1 he)
        · have him : i ∈ ids (T + sign) sign (c.nAtom - 2).toNat := by
            rw [hT] at hiT ⊢
            rw [hH] at hiH
            rw [mem_ids]
            unfold Site at hi
            unfold endId at *
            rcases hs with rfl | rfl
            · simp at *
              exact ⟨(i - 1).toNat, by omega, by omega⟩
            · simp at *
              exact ⟨(c.nAtom - 2 - i).toNat, by omega, by omega⟩
          rw [f4 i him]
          exact Function.update_of_ne (fun he => (hsites i him).2.2.2.2
            (hc.inj _ _ (hsites i him).2.1 hts.1 he)) _ _
    · have hb' : ∀ i, Site c i → b ≠ c.atom i := fun i hi he => hb ⟨i, hi, he.symm⟩
      rw [slidLabel_other hb', Function.update_of_ne (hb' _ hhs), f5]
      · exact Function.update_of_ne (hb' _ hts.1) _ _
      · rw [List.mem_map]
        rintro ⟨k, hk, he⟩
        exact hb' k (hsites k hk).1 he.symm

theorem slide_false (hcap : w.atoms.card < w.cellCap) {c : Chain} {R : ℝ}
    (hc : c.OK w bravais R) (h2 : 2 ≤ c.nAtom) {sign : ℤ} (hs : sign = 1 ∨ sign = -1)
    {s : Sys} {q : Conf} (h : At (sub w {c.atom (endId c (-sign))}) lengths cutoff s.cells q)
    (hq : ∀ b ∈ w.atoms, b ≠ c.atom (endId c (-sign)) → q b = s.pos b) {oldPos : Vec}
    (ho : oldPos ∈ cell w.gen) :
    ∃ s', slide w c sign oldPos s false = .ok (s', false) ∧ At w lengths cutoff s'.cells s'.pos ∧
      { s' with pos := s.pos, cells := s.cells } = s ∧
      s'.pos = Function.update s.pos (c.atom (endId c (-sign))) oldPos := by
  have hts := (endId_site h2 (neg_cases hs)).1
  obtain ⟨cl, e1, e2⟩ := cells_add (w := w) (T := ∅) (cl := s.cells) (q := q)
    (a := c.atom (endId c (-sign))) (r := oldPos) (by simpa using h) (hc.mem _ hts) (by simp) ho hcap
  rw [sub_empty] at e2
  refine ⟨{ s.setPos (c.atom (endId c (-sign))) oldPos with cells := cl }, ?_, e2.congr ?_, rfl, rfl⟩
  · unfold slide
    dsimp only
    rw [Function.update_self, e1, ok_bind]
  · intro b hb
    change _ = Function.update s.pos (c.atom (endId c (-sign))) oldPos b
    by_cases hbT : b = c.atom (endId c (-sign))
    · rw [hbT, Function.update_self, Function.update_self]
    · rw [Function.update_of_ne hbT, Function.update_of_ne hbT, hq b hb hbT]

/-! ### The move -/

/-- Rosenbluth weight of the tail. -/
noncomputable def tailW (w : World) (bravais : Fin 3 → Vec) (c : Chain) (t : ℕ → ℕ) (sign : ℤ)
    (p : Conf) (us : List Vec) : ℝ := delWt w bravais c t (-sign) p (endId c (-sign)) us

/-- The configuration with the tail atom at the position of the new head, and its Rosenbluth
weight. -/
noncomputable def headGrown (w : World) (bravais : Fin 3 → Vec) (c : Chain) (t : ℕ → ℕ) (sign : ℤ)
    (g : ℝ × List Vec × ℝ) (p : Conf) : Conf × ℝ :=
  growPure (slidWorld w c sign) bravais (moved c sign) t sign [endId c sign] [g] p

/-- Types during the growth: the tail atom has the type of the head. -/
def headType (c : Chain) (sign : ℤ) (t : ℕ → ℕ) : ℕ → ℕ :=
  Function.update t (c.atom (endId c (-sign))) (t (c.atom (endId c sign)))

theorem reptate_ok (ok : w.OK lengths bravais cutoff) {c : Chain} {R : ℝ} (hc : c.OK w bravais R)
    (hcap : w.atoms.card < w.cellCap) (h2 : 2 ≤ c.nAtom) {bonded : Bool} (hm : Masks w c bonded)
    {k : ℕ} (hk : 0 < k) {e : ℝ} {s : Sys} (h : At w lengths cutoff s.cells s.pos)
    (ht : ∀ j, Site c j → s.typ (c.atom j) = c.atomType j)
    (h0 : 0 < lenOf w c (-signOf e) (endId c (-signOf e)) s.pos)
    (h1 : lenOf w c (-signOf e) (endId c (-signOf e)) s.pos < R) {us : List Vec}
    (hu : ∀ u ∈ us, normSq u = 1) {g : ℝ × List Vec × ℝ} (hg : Draw R k g) (v : ℝ) {z : Conf} {Wf Wr : ℝ}
    (hz : (z, Wf) = headGrown w bravais c (headType c (signOf e) s.typ) (signOf e) g s.pos)
    (hWr : Wr = tailW w bravais c s.typ (signOf e) s.pos us) :
    ∃ f s', 0 < f ∧ (Blind w c (signOf e) → f = 1) ∧
      (∀ t', Shifts c (signOf e) s.typ t' → f = Real.exp (-w.beta *
        (restOf w (c.atom (endId c (-signOf e))) s.pos t' -
          restOf w (c.atom (endId c (-signOf e))) s.pos s.typ))) ∧
      reptate w c bonded e us g v s = .ok (w, s', metropolis (f * Wf / Wr) v) ∧
      At w lengths cutoff s'.cells s'.pos ∧
      s'.pos = (if metropolis (f * Wf / Wr) v = true then fun b => z (slidLabel c (signOf e) b)
        else s.pos) ∧
      s'.typ = s.typ ∧ s'.nAttempt = s.nAttempt + 1 ∧
      s'.nAccept = s.nAccept + (if metropolis (f * Wf / Wr) v = true then 1 else 0) := by
  obtain ⟨sign, hsign⟩ : ∃ x, x = signOf e := ⟨_, rfl⟩
  have hs := signOf_cases e
  rw [← hsign] at hs h0 h1 hz hWr ⊢
  have hns := neg_cases hs
  have htl := endId_site h2 hns
  have hhd := endId_site h2 hs
  obtain ⟨T, hT⟩ : ∃ T, T = endId c (-sign) := ⟨_, rfl⟩
  obtain ⟨H, hH⟩ : ∃ H, H = endId c sign := ⟨_, rfl⟩
  have hTH : H ≠ T := by rw [hT, hH]; exact endId_ne h2 hs
  rw [← hT] at h0 h1 htl
  rw [← hH] at hhd
  have hcell : ∀ b ∈ w.atoms, s.pos b ∈ cell w.gen := fun b hb => h.unit hb
  have hbT : beyond c (-sign) T = ∅ := by rw [hT]; exact beyond_last c hns
  -- removal of the tail
  obtain ⟨y, hy, e1⟩ := deleteAtom_ok ok hc hns htl.1 htl.2 (s := s.attempt) (q := s.pos)
    (by rw [hbT, sub_empty]; exact h) (hcell _ (hc.mem _ htl.1)) (hcell _ (hc.mem _ htl.2))
    (fun _ _ _ => rfl) h0 h1 hu
  obtain ⟨cl, e2, e3⟩ := cells_delete (w := w) (T := ∅) (cl := s.cells) (q := s.pos)
    (a := c.atom T) (by rw [sub_empty]; exact h) (hc.mem _ htl.1) (by simp) hcap
  have hWr' : φOf w c s.typ (-sign) T s.pos + (us.map fun u => φOf w c s.typ (-sign) T
      (Function.update s.pos (c.atom T)
        (trialPos w bravais c (-sign) T s.pos (lenOf w c (-sign) T s.pos) u))).sum = Wr := by
    rw [hWr, hT]
    rfl
  have e1' : deleteAtom w c (-sign) T us s.attempt =
      .ok (s.attempt.setPos (c.atom T) y, Wr) := by rw [e1]; rw [← hWr']
  -- growth of the head
  obtain ⟨t', ht'⟩ : ∃ t', t' = headType c sign s.typ := ⟨_, rfl⟩
  obtain ⟨s2, hs2⟩ : ∃ s2 : Sys, s2 = ({ s.attempt.setPos (c.atom T) y with cells := cl } : Sys).setTyp
    (c.atom T) (s.typ (c.atom H)) := ⟨_, rfl⟩
  have hs2t : s2.typ = t' := by rw [hs2, ht', hT, hH]; rfl
  have hmT : (moved c sign).atom H = c.atom T := by
    rw [moved_atom]; unfold nextSite; rw [hH, if_pos rfl, ← hT]
  have hmH : (moved c sign).atom (H - sign) = c.atom H := by
    rw [moved_atom]; unfold nextSite
    rw [← hH, if_neg (by rcases hs with rfl | rfl <;> simp), sub_add_cancel]
  have hbm : beyond (moved c sign) sign H = ∅ := by
    rw [hH]; exact beyond_last (moved c sign) hs
  have hok' := slidWorld_ok (c := c) (sign := sign) ok
  have hc' := moved_ok h2 hc hs
  obtain ⟨ℓ, vs, roll⟩ := g
  obtain ⟨d1, d2, d3, d4, d5, d6⟩ := hg
  dsimp only at d1 d2 d3 d4 d5 d6
  have hneHT : c.atom H ≠ c.atom T := fun he => hTH (hc.inj _ _ hhd.1 htl.1 he)
  have hs2p : s2.pos = Function.update s.pos (c.atom T) y := by rw [hs2]
  have hposH : s2.pos (c.atom H) = s.pos (c.atom H) := by rw [hs2p, Function.update_of_ne hneHT]
  obtain ⟨hj, f1⟩ := addAtom_ok hok' hc' hs (i := H) (s := s2) (q := s.pos) hhd.1 hhd.2
    (by rw [hbm, hmT, hs2]; exact ⟨e3.rel, e3.n⟩)
    (by
      change _ = c.atomType H
      rw [hmT, hs2t, ht', ← ht H hhd.1, hT, hH]; exact Function.update_self _ _ _)
    (by rw [hmH, hposH]; exact hcell _ (hc.mem _ hhd.1))
    (fun b hb => by
      rw [hbm, hmT] at hb
      rw [hs2p, Function.update_of_ne]
      exact fun he => (Finset.mem_sdiff.1 hb).2 (by simp [he])) d1 d2 d4
    (by rintro rfl; simp at d3; omega) d5 d6
  obtain ⟨fs, hfs⟩ : ∃ fs, fs = factors (slidWorld w c sign) bravais (moved c sign) s2.typ sign H
    s2.pos ℓ vs := ⟨_, rfl⟩
  simp only [← hfs] at hj f1
  have htp : ∀ u, trialPos (slidWorld w c sign) bravais (moved c sign) sign H s2.pos ℓ u =
      trialPos (slidWorld w c sign) bravais (moved c sign) sign H s.pos ℓ u := by
    intro u
    unfold trialPos
    rw [hmH, hposH]
  have hfs' : fs = factors (slidWorld w c sign) bravais (moved c sign) t' sign H s.pos ℓ vs := by
    rw [hfs, hs2t]
    unfold factors
    refine List.map_congr_left fun u _ => ?_
    rw [htp, hmT, hs2p, Function.update_idem]
  obtain ⟨x, hx⟩ : ∃ x, x = trialPos (slidWorld w c sign) bravais (moved c sign) sign H s.pos ℓ
    vs[pick (probs fs) roll] := ⟨_, rfl⟩
  have hxc : x ∈ cell w.gen := by
    obtain ⟨t1, t2, -, -⟩ := trial_dvec ok hc (hcell _ (hc.mem _ hhd.1))
      (d4 vs[pick (probs fs) roll] (List.getElem_mem hj)) d1.le d2
    rw [t1] at t2
    rw [hx]
    unfold trialPos
    rw [hmH]
    exact t2
  have hx' : x = trialPos (slidWorld w c sign) bravais (moved c sign) sign H s.pos ℓ
      (vs.getD (pick (probs fs) roll) 0) := by
    rw [hx, List.getD_eq_getElem?_getD, List.getElem?_eq_getElem hj]
    rfl
  have hzW : z = Function.update s.pos (c.atom T) x ∧ Wf = fs.sum := by
    unfold headGrown at hz
    simp only [growPure] at hz
    rw [← hH, ← ht', ← hfs', ← hx', hmT, mul_one] at hz
    exact ⟨congrArg Prod.fst hz, congrArg Prod.snd hz⟩
  obtain ⟨s3, hs3⟩ : ∃ s3 : Sys, s3 = s2.setPos (c.atom T) x := ⟨_, rfl⟩
  have hs3p : s3.pos = z := by
    rw [hs3, hzW.1]
    change Function.update s2.pos (c.atom T) x = _
    rw [hs2p, Function.update_idem]
  have f2 : addAtom (retie w (c.atom T) (c.atom H) bonded) (moved c sign) sign H ℓ vs roll s2 =
      .ok (s3, Wf) := by
    have hrow : Function.update w.masked (c.atom T)
        (fun x => bonded && decide (x = c.atom H)) ((moved c sign).atom H) =
        (slidWorld w c sign).masked ((moved c sign).atom H) := by
      rw [hmT, Function.update_self, hT, hH]
      exact (slid_row h2 hc hs hm).symm
    have := addAtom_row (w := w) (sign := sign) (m := Function.update w.masked (c.atom T)
      fun x => bonded && decide (x = c.atom H)) (m' := (slidWorld w c sign).masked) hrow ℓ vs roll s2
    unfold retie
    rw [this]
    change addAtom (slidWorld w c sign) (moved c sign) sign H ℓ vs roll s2 = _
    rw [f1, hmT, htp, ← hx, hs3, hzW.2]
  have hat : At (sub w {c.atom T}) lengths cutoff s3.cells s.pos := by
    rw [hs3, hs2]
    simpa using e3
  have hzc : ∀ b ∈ w.atoms, z b ∈ cell w.gen := by
    intro b hb
    rw [hzW.1]
    by_cases hbT : b = c.atom T
    · rw [hbT, Function.update_self]; exact hxc
    · rw [Function.update_of_ne hbT]; exact hcell b hb
  have hqz : ∀ b ∈ w.atoms, b ≠ c.atom T → s.pos b = z b := by
    intro b _ hbT
    rw [hzW.1, Function.update_of_ne hbT]
  have hs3t : s3.typ = t' := by rw [hs3]; exact hs2t
  -- the junction factor
  obtain ⟨f, hf0, hf1, hfs, hfj⟩ : ∃ f, 0 < f ∧ (Blind w c sign → f = 1) ∧
      (∀ t', Shifts c sign s.typ t' → f = Real.exp (-w.beta *
        (restOf w (c.atom (endId c (-sign))) s.pos t' -
          restOf w (c.atom (endId c (-sign))) s.pos s.typ))) ∧
      jFactorOf (retie w (c.atom T) (c.atom H) bonded) c sign s3 = .ok (s3, f) := by
    unfold jFactorOf
    by_cases hjn : junctions c = []
    · refine ⟨1, one_pos, fun _ => rfl, fun t' hsh => ?_, by rw [if_neg (not_not.2 hjn)]⟩
      rw [restOf_congr (t := t') (t' := s.typ) (fun _ _ _ => rfl) fun b _ hbt => ?_, sub_self, mul_zero,
        Real.exp_zero]
      by_cases hbc : ∃ j, Site c j ∧ b = c.atom j
      · obtain ⟨j, hj, rfl⟩ := hbc
        have hjt : j ≠ endId c (-sign) := fun h => hbt (by rw [h])
        rw [hsh.1 j hj hjt, ht j hj]
        rcases junction_iff hs hj hjt with ⟨i, hi, -⟩ | ⟨hty, -⟩
        · rw [hjn] at hi; cases hi
        · exact hty.symm
      · push Not at hbc
        exact hsh.2 b hbc
    · obtain ⟨f, hf0, hfB, hfS, hf⟩ := junctionFactor_ok ok hc h2 hs
        (m := (retie w (c.atom T) (c.atom H) bonded).masked) (fun a ha => by
          unfold retie
          rw [← hT] at ha
          exact Function.update_of_ne ha _ _) (s := s3) (q := s.pos) (by rw [← hT]; exact hat)
        (by rw [hs3p]; exact hzc) (by rw [hs3p, ← hT]; exact hqz)
        (fun j hjs hjT => by
          rw [hs3t, ht']
          unfold headType
          rw [Function.update_of_ne fun he => hjT (by rw [← hT] at he ⊢; exact hc.inj _ _ hjs htl.1 he)]
          exact ht j hjs)
      refine ⟨f, hf0, hfB, fun t' hsh => ?_, by rw [if_pos hjn]; exact hf⟩
      have hoff : ∀ b, b ≠ c.atom T → s3.typ b = s.typ b := fun b hb => by
        rw [hs3t, ht']
        unfold headType
        rw [Function.update_of_ne (by rw [← hT]; exact hb)]
      rw [hfS t' ⟨hsh.1, fun b hb => by
          rw [hsh.2 b hb, hoff b (hb _ htl.1)]⟩, hs3p,
        restOf_congr (p := z) (p' := s.pos) (t := t') (t' := t')
          (fun b hb hbt => (hqz b hb (by rw [hT]; exact hbt)).symm) (fun _ _ _ => rfl),
        restOf_congr (p := z) (p' := s.pos) (t := s3.typ) (t' := s.typ)
          (fun b hb hbt => (hqz b hb (by rw [hT]; exact hbt)).symm)
          (fun b _ hbt => hoff b (by rw [hT]; exact hbt))]
  -- sliding
  obtain ⟨s5, hs5⟩ : ∃ s5 : Sys, s5 = s3.setTyp (c.atom T) (s.typ (c.atom T)) := ⟨_, rfl⟩
  have hs5e : { s5 with pos := s.pos, cells := s.cells } = s.attempt := by
    rw [hs5, hs3, hs2]
    simp only [Function.update_idem, Function.update_eq_self]
  have hs5p : s5.pos = z := by rw [hs5]; exact hs3p
  have hback := retie_back h2 hs hm (c.atom H)
  rw [← hT] at hback
  have hrun : ∀ s' b, slide w c sign (s.pos (c.atom T)) s5 (metropolis (f * Wf / Wr) v) = .ok (s', b) →
      reptate w c bonded e us (ℓ, vs, roll) v s = .ok (w, s', b) := by
    intro s' b hsl
    unfold reptate
    rw [← hsign]
    dsimp only
    rw [← hT, ← hH, e1', ok_bind]
    dsimp only
    rw [e2, ok_bind]
    have f2' := f2
    rw [hs2] at f2'
    dsimp only at f2'
    rw [f2', ok_bind]
    dsimp only
    rw [hfj, ok_bind]
    dsimp only
    rw [hback]
    rw [hs5] at hsl
    rw [hsl, ok_bind]
  have hat5 : At (sub w {c.atom (endId c (-sign))}) lengths cutoff s5.cells s.pos := by
    rw [hs5, ← hT]; exact hat
  refine ⟨f, ?_⟩
  cases hmet : metropolis (f * Wf / Wr) v with
  | true =>
    obtain ⟨s', g1, g2, g3, g4⟩ := slide_true hcap hc h2 hs hat5 (by rw [hs5p]; exact hzc)
      (by rw [hs5p, ← hT]; exact hqz) (s.pos (c.atom T))
    have g5 : { s' with pos := s.pos, cells := s.cells } = s.attempt.accept := by
      have := congrArg (fun x : Sys => { x with pos := s.pos, cells := s.cells }) g3
      refine this.trans ?_
      exact congrArg (fun x : Sys => { x with nAccept := x.nAccept + 1 }) hs5e
    refine ⟨s', hf0, hf1, hfs, hrun s' true (by rw [hmet]; exact g1), g2, ?_, ?_, ?_, ?_⟩
    · rw [if_pos rfl, g4, hs5p]
    · have := congrArg Sys.typ g5
      exact this
    · have := congrArg Sys.nAttempt g5
      exact this
    · have := congrArg Sys.nAccept g5
      simpa using this
  | false =>
    obtain ⟨s', g1, g2, g3, g4⟩ := slide_false hcap hc h2 hs hat5
      (by rw [hs5p, ← hT]; exact hqz) (hcell _ (hc.mem _ htl.1))
    have g5 : { s' with pos := s.pos, cells := s.cells } = s.attempt := by
      have := congrArg (fun x : Sys => { x with pos := s.pos, cells := s.cells }) g3
      exact this.trans hs5e
    refine ⟨s', hf0, hf1, hfs, hrun s' false (by rw [hmet]; exact g1), g2, ?_, ?_, ?_, ?_⟩
    · rw [if_neg (by simp), g4, hs5p, hzW.1, ← hT, Function.update_idem, Function.update_eq_self]
    · have := congrArg Sys.typ g5
      exact this
    · have := congrArg Sys.nAttempt g5
      exact this
    · have := congrArg Sys.nAccept g5
      simpa using this

end Verif.Cfb
