/-
Energies computed through the cell list equal energies of the specification,
which sums over all pairs of atoms.
-/
import Verif.McMoves.Model
import Verif.McCellList.Props
import Mathlib.Algebra.BigOperators.Ring.Finset

set_option autoImplicit false

namespace Verif.McMoves

open Verif.Boundary Verif.McCellList Verif.McCell
open Verif.Cpp
open Verif.Cpp.Out

/-! ### Specification -/

/-- Energy of a pair of atoms, zero if it is masked. -/
noncomputable def pairE (w : World) (p : ℕ → Vec) (t : ℕ → ℕ) (a b : ℕ) : ℝ :=
  if w.masked a b = false then w.pair (w.dsq (p a) (p b)) (t a) (t b) else 0

/-- Potential energy of the system: every pair once, every term once. -/
noncomputable def energy (w : World) (p : ℕ → Vec) (t : ℕ → ℕ) : ℝ :=
  (∑ a ∈ w.atoms, ∑ b ∈ w.atoms, if a < b then pairE w p t a b else 0)
    + (w.bonded.map fun x => x.energy p).sum + (w.links.map fun x => x.energy p).sum
    + ∑ a ∈ w.atoms, w.ext (p a) (t a) + ∑ a ∈ w.atoms, w.tether a (p a)

/-- What the program guarantees about the interactions (see C27-C35) and the
boundary (see C23-C26). -/
structure World.OK (w : World) (lengths : Vec) (bravais : Fin 3 → Vec) (cutoff : ℝ) : Prop where
  geo : Geo w.gen lengths bravais
  dist : Dist bravais w.dsq
  dsymm : ∀ r r', w.dsq r r' = w.dsq r' r
  cut : 0 < cutoff
  range : ∀ x t t', cutoff ^ 2 ≤ x → w.pair x t t' = 0
  psymm : ∀ x t t', w.pair x t t' = w.pair x t' t
  msymm : ∀ a b, w.masked a b = w.masked b a
  molMem : ∀ m, ∀ a ∈ w.molAtoms m, a ∈ w.atoms ∧ w.molOf a = m
  molAll : ∀ a ∈ w.atoms, a ∈ w.molAtoms (w.molOf a)
  molNodup : ∀ m, (w.molAtoms m).Nodup
  bonded : ∀ x ∈ w.bonded, ∀ p p' : ℕ → Vec, (∀ a ∈ x.atoms, p a = p' a) → x.energy p = x.energy p'
  links : ∀ x ∈ w.links, ∀ p p' : ℕ → Vec, (∀ a ∈ x.atoms, p a = p' a) → x.energy p = x.energy p'

/-- Numbers of cells. -/
noncomputable def grid (lengths : Vec) (cutoff : ℝ) : IVec := fun i => axisCells (lengths i) cutoff

/-- The cell list holds the atoms of the system at the positions `q`. -/
structure At (w : World) (lengths : Vec) (cutoff : ℝ) (c : CL) (q : ℕ → Vec) : Prop where
  rel : Rel w.cellCap c w.atoms (fun a => w.gen (q a))
  n : c.n = grid lengths cutoff

/-- No cell is filled to capacity by atoms at the positions `q`. -/
def Fits (w : World) (n : IVec) (q : ℕ → Vec) : Prop := Roomy w.gen w.cellCap n ⟨w.atoms, q⟩

variable {w : World} {lengths : Vec} {bravais : Fin 3 → Vec} {cutoff : ℝ}

theorem At.tracks {c : CL} {q : ℕ → Vec} (h : At w lengths cutoff c q) :
    Tracks w.gen w.cellCap c ⟨w.atoms, q⟩ := Rel.tracks (A := ⟨w.atoms, q⟩) h.rel

theorem At.unit {c : CL} {q : ℕ → Vec} (h : At w lengths cutoff c q) {a : ℕ} (ha : a ∈ w.atoms) :
    InUnit (w.gen (q a)) := h.rel.unit a ha

/-- Only positions of atoms of the system matter. -/
theorem At.congr {c : CL} {q q' : ℕ → Vec} (h : At w lengths cutoff c q)
    (he : ∀ a ∈ w.atoms, q a = q' a) : At w lengths cutoff c q' := by
  obtain ⟨⟨h1, h2, h3, h4, h5, h6⟩, hn⟩ := h
  refine ⟨⟨h1, h2, h3, fun a ha => ?_, fun a ha => ?_, ?_⟩, hn⟩
  · simpa [← he a ha] using h4 a ha
  · simpa [← he a ha] using h5 a ha
  · exact h6

theorem near_ok (ok : w.OK lengths bravais cutoff) {s : Sys} {q : ℕ → Vec}
    (h : At w lengths cutoff s.cells q) {r : Vec} (hr : InUnit (w.gen r)) :
    ∃ l, near w s r = .ok l ∧ l.Nodup ∧ (∀ a ∈ l, a ∈ w.atoms) ∧
      ∀ a ∈ w.atoms, (∃ k : IVec, normSq (r - q a + latComb bravais k) < cutoff ^ 2) → a ∈ l := by
  have h3 := h.rel
  have hn := h3.npos
  have hidx : indexFromGen s.cells.n (w.gen r) = some (kOf s.cells.n (w.gen r)) :=
    indexFromGen_eq hn hr
  have hbg := box_inGrid hn hr
  have hn0 : ∀ i, s.cells.n i = axisCells (lengths i) cutoff := fun i => by rw [h.n]; rfl
  refine ⟨(s.cells.cellNeighbors (kOf s.cells.n (w.gen r))).1,
    by simp [near, CL.getNeighbors, hidx], ?_, ?_, ?_⟩
  · unfold CL.cellNeighbors
    simp only
    rw [List.nodup_append]
    refine ⟨h3.nodup_list _, ?_, ?_⟩
    · rw [List.nodup_flatMap]
      refine ⟨fun k _ => h3.nodup_list k, ?_⟩
      refine List.Pairwise.imp ?_ (nodup_otherCells hn hbg)
      intro k k' hne
      rw [Function.onFun, List.disjoint_left]
      intro a h1 h2
      rw [h3.mem_list] at h1 h2
      exact hne (h1.2.symm.trans h2.2)
    · intro a h1 b h2 hab
      subst hab
      obtain ⟨k, hk, h2⟩ := List.mem_flatMap.1 h2
      rw [h3.mem_list] at h1 h2
      have hne : k ≠ kOf s.cells.n (w.gen r) := by
        unfold otherCells at hk
        have := (List.mem_filter.1 hk).2
        simpa using this
      exact hne (h2.2.symm.trans h1.2)
  · intro a hal
    unfold CL.cellNeighbors at hal
    simp only at hal
    rcases List.mem_append.1 hal with h | h
    · exact ((h3.mem_list _ a).1 h).1
    · obtain ⟨k, _, h⟩ := List.mem_flatMap.1 h
      exact ((h3.mem_list _ a).1 h).1
  · rintro a haS ⟨k, hk⟩
    have hua := h3.unit a haS
    have hag := box_inGrid hn hua
    have hvis : ∀ i, box s.cells.n (w.gen (q a)) i ∈
        visited (s.cells.n i) (box s.cells.n (w.gen r) i) := by
      intro i
      unfold box
      rw [hn0 i]
      refine adjacent_axis (k := k i) (ok.geo.pos i) ok.cut (hr i) (hua i) ?_
      have hb := ok.geo.bound (r - q a + latComb bravais k) i
      rw [ok.geo.lin] at hb
      exact lt_of_le_of_lt hb hk
    unfold CL.cellNeighbors
    simp only
    by_cases heq : box s.cells.n (w.gen (q a)) = box s.cells.n (w.gen r)
    · refine List.mem_append_left _ ((h3.mem_list _ a).2 ⟨haS, ?_⟩)
      change cellIndex s.cells.n (box s.cells.n (w.gen (q a)) 0)
        (box s.cells.n (w.gen (q a)) 1) (box s.cells.n (w.gen (q a)) 2) = _
      rw [heq]
      rfl
    · refine List.mem_append_right _ (List.mem_flatMap.2 ⟨kOf s.cells.n (w.gen (q a)), ?_,
        (h3.mem_list _ a).2 ⟨haS, rfl⟩⟩)
      exact (mem_otherCells hn hbg hag).2 ⟨heq, hvis⟩

/-- A sum over the neighbour list is a sum over all atoms if atoms beyond the
cutoff do not contribute. -/
theorem near_sum (ok : w.OK lengths bravais cutoff) {s : Sys} {q : ℕ → Vec}
    (h : At w lengths cutoff s.cells q) {r : Vec} (hr : InUnit (w.gen r)) (f : ℕ → ℝ)
    (hf : ∀ b ∈ w.atoms, cutoff ^ 2 ≤ w.dsq r (q b) → f b = 0) :
    ∃ l, near w s r = .ok l ∧ (l.map f).sum = ∑ b ∈ w.atoms, f b := by
  obtain ⟨l, h1, h2, h3, h4⟩ := near_ok ok h hr
  refine ⟨l, h1, ?_⟩
  rw [← List.sum_toFinset f h2]
  refine Finset.sum_subset (fun b hb => h3 b (List.mem_toFinset.1 hb)) ?_
  intro b hb hbl
  refine hf b hb ?_
  by_contra hlt
  push Not at hlt
  obtain ⟨k, hk⟩ := ok.dist.image r (q b)
  exact hbl (List.mem_toFinset.2 (h4 b hb ⟨k, by rw [← hk]; exact hlt⟩))

theorem pairE_symm (ok : w.OK lengths bravais cutoff) (p : ℕ → Vec) (t : ℕ → ℕ) (a b : ℕ) :
    pairE w p t a b = pairE w p t b a := by
  unfold pairE
  rw [ok.msymm a b, ok.dsymm (p a) (p b), ok.psymm]

/-- Sum over pairs split into pairs with an atom of `M` and the others. -/
theorem split_pairs (S M : Finset ℕ) (F : ℕ → ℕ → ℝ) (hF : ∀ a b, F a b = F b a) :
    (∑ a ∈ S, ∑ b ∈ S, if a < b then F a b else 0) =
      (∑ a ∈ S, ∑ b ∈ S, if a ∈ M ∧ b ≠ a ∧ (b ∉ M ∨ a < b) then F a b else 0) +
      ∑ a ∈ S, ∑ b ∈ S, if a ∉ M ∧ b ∉ M ∧ a < b then F a b else 0 := by
  have h1 : (∑ a ∈ S, ∑ b ∈ S, if a < b then F a b else 0) =
      (∑ a ∈ S, ∑ b ∈ S, if a ∈ M ∧ a < b then F a b else 0) +
      (∑ a ∈ S, ∑ b ∈ S, if a ∉ M ∧ b ∈ M ∧ a < b then F a b else 0) +
      ∑ a ∈ S, ∑ b ∈ S, if a ∉ M ∧ b ∉ M ∧ a < b then F a b else 0 := by
    simp only [← Finset.sum_add_distrib]
    refine Finset.sum_congr rfl fun a _ => Finset.sum_congr rfl fun b _ => ?_
    by_cases ha : a ∈ M <;> by_cases hb : b ∈ M <;> by_cases hab : a < b <;> simp [ha, hb, hab]
  have h2 : (∑ a ∈ S, ∑ b ∈ S, if a ∉ M ∧ b ∈ M ∧ a < b then F a b else 0) =
      ∑ a ∈ S, ∑ b ∈ S, if a ∈ M ∧ b ∉ M ∧ b < a then F a b else 0 := by
    rw [Finset.sum_comm]
    refine Finset.sum_congr rfl fun a _ => Finset.sum_congr rfl fun b _ => ?_
    rw [hF b a]
    refine if_congr ?_ rfl rfl
    tauto
  rw [h1, h2]
  congr 1
  simp only [← Finset.sum_add_distrib]
  refine Finset.sum_congr rfl fun a _ => Finset.sum_congr rfl fun b _ => ?_
  rcases lt_trichotomy a b with hab | rfl | hab
  · have h' : ¬ b < a := by omega
    have h'' : b ≠ a := by omega
    by_cases ha : a ∈ M <;> simp [ha, hab, h', h'']
  · simp
  · have h' : ¬ a < b := by omega
    have h'' : b ≠ a := by omega
    by_cases ha : a ∈ M <;> by_cases hb : b ∈ M <;> simp [ha, hab, h', h'', hb]

/-- Pair energy of one atom, with all other atoms of the system. -/
noncomputable def atomPairE (w : World) (p : ℕ → Vec) (t : ℕ → ℕ) (a : ℕ) : ℝ :=
  ∑ b ∈ w.atoms, if b ≠ a then pairE w p t a b else 0

theorem atomPairE_split (w : World) (p : ℕ → Vec) (t : ℕ → ℕ) {a : ℕ} (ha : a ∈ w.atoms) :
    atomPairE w p t a = ∑ x ∈ w.atoms, ∑ b ∈ w.atoms,
      if x ∈ ({a} : Finset ℕ) ∧ b ≠ x ∧ (b ∉ ({a} : Finset ℕ) ∨ x < b) then pairE w p t x b else 0 := by
  rw [Finset.sum_eq_single a]
  · unfold atomPairE
    refine Finset.sum_congr rfl fun b _ => if_congr ?_ rfl rfl
    simp only [Finset.mem_singleton, true_and]
    tauto
  · intro x _ hx
    refine Finset.sum_eq_zero fun b _ => if_neg ?_
    simp [hx]
  · exact fun h => absurd ha h

/-- Pair energy of the atoms of a molecule: pairs within it once. -/
noncomputable def molPairE (w : World) (p : ℕ → Vec) (t : ℕ → ℕ) (m : ℕ) : ℝ :=
  ∑ a ∈ (w.molAtoms m).toFinset, ∑ b ∈ w.atoms,
    if b ≠ a ∧ (b ∉ (w.molAtoms m).toFinset ∨ a < b) then pairE w p t a b else 0

theorem molPairE_split (ok : w.OK lengths bravais cutoff) (p : ℕ → Vec) (t : ℕ → ℕ) (m : ℕ) :
    molPairE w p t m = ∑ x ∈ w.atoms, ∑ b ∈ w.atoms,
      if x ∈ (w.molAtoms m).toFinset ∧ b ≠ x ∧ (b ∉ (w.molAtoms m).toFinset ∨ x < b)
      then pairE w p t x b else 0 := by
  unfold molPairE
  rw [← Finset.sum_subset (s₁ := (w.molAtoms m).toFinset) (s₂ := w.atoms)]
  · refine Finset.sum_congr rfl fun a ha => Finset.sum_congr rfl fun b _ => if_congr ?_ rfl rfl
    simp only [ha, true_and]
  · exact fun a ha => (ok.molMem m a (List.mem_toFinset.1 ha)).1
  · intro x _ hx
    refine Finset.sum_eq_zero fun b _ => if_neg ?_
    simp only [hx, false_and, not_false_eq_true]

/-- **Energy of one atom.**  The cell list may hold the atom itself at another
position. -/
theorem atomPair_ok (ok : w.OK lengths bravais cutoff) {s : Sys} {q : ℕ → Vec} {a : ℕ}
    (h : At w lengths cutoff s.cells q) (hr : InUnit (w.gen (s.pos a)))
    (hq : ∀ b ∈ w.atoms, b ≠ a → w.masked a b = false → q b = s.pos b) :
    atomPair w s a = .ok (atomPairE w s.pos s.typ a) := by
  obtain ⟨l, h1, h2⟩ := near_sum ok h hr (atomPairOne w s a) (by
    intro b hb hlt
    unfold atomPairOne pairOne
    split
    · next hc =>
      rw [hq b hb hc.1 hc.2] at hlt
      exact ok.range _ _ _ hlt
    · rfl)
  unfold atomPair
  rw [h1, ok_bind, h2]
  congr 1
  unfold atomPairE
  refine Finset.sum_congr rfl fun b _ => ?_
  unfold atomPairOne pairE pairOne
  by_cases hba : b ≠ a <;> by_cases hm : w.masked a b = false <;> simp [hba, hm]

theorem molOf_ne_iff (ok : w.OK lengths bravais cutoff) {m a b : ℕ} (ha : a ∈ w.molAtoms m)
    (hb : b ∈ w.atoms) : w.molOf a ≠ w.molOf b ↔ b ∉ (w.molAtoms m).toFinset := by
  rw [List.mem_toFinset, (ok.molMem m a ha).2, not_iff_not]
  constructor
  · intro e
    have := ok.molAll b hb
    rwa [← e] at this
  · exact fun h => ((ok.molMem m b h).2).symm

/-- **Energy of a molecule.** -/
theorem molPair_ok (ok : w.OK lengths bravais cutoff) {s : Sys} (m : ℕ)
    (h : At w lengths cutoff s.cells s.pos) :
    molPair w s m = .ok (molPairE w s.pos s.typ m) := by
  have key : ∀ (l : List ℕ) (e : ℝ), (∀ a ∈ l, a ∈ w.molAtoms m) →
      loop (fun e a => do
        let l ← near w s (s.pos a)
        Out.ok (e + (l.map (molPairOne w s a)).sum)) l e =
      .ok (e + (l.map fun a => ∑ b ∈ w.atoms,
        if b ≠ a ∧ (b ∉ (w.molAtoms m).toFinset ∨ a < b) then pairE w s.pos s.typ a b else 0).sum) := by
    intro l
    induction l with
    | nil => intro e _; simp
    | cons a l ih =>
      intro e hl
      have ha := hl a (List.mem_cons_self ..)
      obtain ⟨k, h1, h2⟩ := near_sum ok h (h.unit (ok.molMem m a ha).1) (molPairOne w s a) (by
        intro b hb hlt
        unfold molPairOne pairOne
        split
        · exact ok.range _ _ _ hlt
        · rfl)
      simp only [loop_cons, h1, ok_bind, h2]
      rw [ih _ fun b hb => hl b (List.mem_cons_of_mem _ hb)]
      simp only [List.map_cons, List.sum_cons]
      congr 1
      rw [add_assoc]
      congr 2
      refine Finset.sum_congr rfl fun b hb => ?_
      unfold molPairOne pairE pairOne
      simp only [molOf_ne_iff ok ha hb]
      by_cases hba : b ≠ a <;> by_cases hm : w.masked a b = false <;>
        by_cases hx : b ∉ (w.molAtoms m).toFinset ∨ a < b <;> simp [hba, hm, hx]
  unfold molPair
  rw [key _ _ fun a ha => ha, zero_add]
  congr 1
  unfold molPairE
  rw [List.sum_toFinset _ (ok.molNodup m)]

/-- Terms without the atom do not change when it moves. -/
theorem terms_diff (l : List Term) (hl : ∀ x ∈ l, ∀ p p' : ℕ → Vec,
    (∀ a ∈ x.atoms, p a = p' a) → x.energy p = x.energy p') (a : ℕ) (s s' : Sys)
    (hp : ∀ b, b ≠ a → s.pos b = s'.pos b) :
    (l.map fun x => x.energy s'.pos).sum - (l.map fun x => x.energy s.pos).sum =
      atomTerms l s' a - atomTerms l s a := by
  induction l with
  | nil => simp [atomTerms]
  | cons x l ih =>
    have h1 := ih fun y hy => hl y (List.mem_cons_of_mem _ hy)
    simp only [atomTerms, List.map_cons, List.sum_cons] at h1 ⊢
    by_cases ha : a ∈ x.atoms
    · simp only [ha, if_true]; linarith
    · have : x.energy s.pos = x.energy s'.pos :=
        hl x (List.mem_cons_self ..) _ _ fun b hb => hp b (by rintro rfl; exact ha hb)
      simp only [ha, if_false, this]; linarith

theorem sum_diff_one (S : Finset ℕ) {a : ℕ} (ha : a ∈ S) (f g : ℕ → ℝ) (h : ∀ b, b ≠ a → f b = g b) :
    ∑ b ∈ S, g b - ∑ b ∈ S, f b = g a - f a := by
  rw [← Finset.sum_sub_distrib, Finset.sum_eq_single a]
  · intro b _ hb; rw [h b hb]; ring
  · exact fun h => absurd ha h

theorem energy_atomPair_diff (ok : w.OK lengths bravais cutoff) {a : ℕ} (ha : a ∈ w.atoms)
    (p p' : ℕ → Vec) (t : ℕ → ℕ) (hp : ∀ b, b ≠ a → p b = p' b) :
    (∑ x ∈ w.atoms, ∑ b ∈ w.atoms, if x < b then pairE w p' t x b else 0) -
      (∑ x ∈ w.atoms, ∑ b ∈ w.atoms, if x < b then pairE w p t x b else 0) =
      atomPairE w p' t a - atomPairE w p t a := by
  rw [split_pairs w.atoms {a} _ (pairE_symm ok p' t), split_pairs w.atoms {a} _ (pairE_symm ok p t),
    ← atomPairE_split w p' t ha, ← atomPairE_split w p t ha]
  have : (∑ x ∈ w.atoms, ∑ b ∈ w.atoms,
      if x ∉ ({a} : Finset ℕ) ∧ b ∉ ({a} : Finset ℕ) ∧ x < b then pairE w p' t x b else 0) =
      ∑ x ∈ w.atoms, ∑ b ∈ w.atoms,
      if x ∉ ({a} : Finset ℕ) ∧ b ∉ ({a} : Finset ℕ) ∧ x < b then pairE w p t x b else 0 := by
    refine Finset.sum_congr rfl fun x _ => Finset.sum_congr rfl fun b _ => ?_
    split
    · next h =>
      simp only [Finset.mem_singleton] at h
      unfold pairE
      rw [hp x h.1, hp b h.2.1]
    · rfl
  rw [this]
  ring

/-- Energy of an atom in the specification, as computed by
`atomPotentialEnergy`. -/
noncomputable def atomE (w : World) (s : Sys) (a : ℕ) : ℝ :=
  atomPairE w s.pos s.typ a + atomTerms w.bonded s a + w.ext (s.pos a) (s.typ a)
    + atomTerms w.links s a + w.tether a (s.pos a)

/-- The change of the energy of an atom is the change of the energy of the
system. -/
theorem atomE_diff (ok : w.OK lengths bravais cutoff) {a : ℕ} (ha : a ∈ w.atoms) (s s' : Sys)
    (hp : ∀ b, b ≠ a → s.pos b = s'.pos b) (ht : s'.typ = s.typ) :
    atomE w s' a - atomE w s a = energy w s'.pos s'.typ - energy w s.pos s.typ := by
  have h1 := energy_atomPair_diff ok ha s.pos s'.pos s.typ hp
  have h2 := terms_diff w.bonded ok.bonded a s s' hp
  have h3 := terms_diff w.links ok.links a s s' hp
  have h4 := sum_diff_one w.atoms ha (fun b => w.ext (s.pos b) (s.typ b))
    (fun b => w.ext (s'.pos b) (s.typ b)) (fun b hb => by simp only [hp b hb])
  have h5 := sum_diff_one w.atoms ha (fun b => w.tether b (s.pos b))
    (fun b => w.tether b (s'.pos b)) (fun b hb => by simp only [hp b hb])
  unfold atomE energy
  rw [ht]
  linarith

/-- `atomPotentialEnergy` through the cell list. -/
theorem atomEnergy_ok (ok : w.OK lengths bravais cutoff) {s : Sys} {q : ℕ → Vec} {a : ℕ}
    (h : At w lengths cutoff s.cells q) (hr : InUnit (w.gen (s.pos a)))
    (hq : ∀ b ∈ w.atoms, b ≠ a → q b = s.pos b) : atomEnergy w s a = .ok (atomE w s a) := by
  unfold atomEnergy
  rw [atomPair_ok ok h hr fun b hb hn _ => hq b hb hn, ok_bind]
  rfl

/-- Moving an atom to another cell. -/
theorem updateCell_ok {s : Sys} {q : ℕ → Vec} {a : ℕ} (h : At w lengths cutoff s.cells q)
    (ha : a ∈ w.atoms) (hr : InUnit (w.gen (s.pos a)))
    (hf : Fits w (grid lengths cutoff) (Function.update q a (s.pos a))) :
    ∃ c, updateCell w s a = .ok { s with cells := c } ∧
      At w lengths cutoff c (Function.update q a (s.pos a)) := by
  obtain ⟨c, h1, h2, h3⟩ := step_rel (A := ⟨w.atoms, q⟩) (op := .move a (s.pos a)) h.rel ⟨ha, hr⟩
    (by rw [h.n]; exact hf)
  refine ⟨c, ?_, ⟨h3, by rw [h2, h.n]⟩⟩
  unfold updateCell
  simp only [McCellList.step] at h1
  rw [h1]
  rfl

end Verif.McMoves
