import Verif.McCellList.Grid
import Verif.McCell.Lemmas
import Mathlib.Algebra.BigOperators.Group.Finset.Basic
import Mathlib.Algebra.Order.BigOperators.Group.Finset

/-! # Invariant of the Monte Carlo cell list -/

namespace Verif.McCellList

open Verif.Boundary Verif.McCell Verif.Cpp

/-- Index of the cell containing scaled coordinates `u`. -/
noncomputable def kOf (n : IVec) (u : Vec) : ℤ :=
  cellIndex n (box n u 0) (box n u 1) (box n u 2)

/-- Concrete state `s` represents the live atoms `S` with last registered scaled
positions `p`. -/
structure Rel (cap : Nat) (s : CL) (S : Finset Nat) (p : Nat → Vec) : Prop where
  npos : ∀ i, 0 < s.n i
  inv : ∀ k, Inv cap (s.cells k)
  tag : ∀ a k q, s.tags a = some (k, q) ↔ (s.cells k).atoms q = some a
  unit : ∀ a ∈ S, ∀ i, 0 ≤ p a i ∧ p a i < 1
  live : ∀ a ∈ S, ∃ q, s.tags a = some (kOf s.n (p a), q)
  dead : ∀ a, a ∉ S → s.tags a = none

/-- The atoms of `S` in the cell with index `k`. -/
noncomputable def inCell (n : IVec) (S : Finset Nat) (p : Nat → Vec) (k : ℤ) : Finset Nat :=
  S.filter (fun a => kOf n (p a) = k)

variable {cap : Nat} {s : CL} {S : Finset Nat} {p : Nat → Vec}

theorem Rel.slot_inj (h : Rel cap s S p) (k : ℤ) :
    ∀ q q' a, (s.cells k).atoms q = some a → (s.cells k).atoms q' = some a → q = q' := by
  intro q q' a h1 h2
  have e1 := (h.tag a k q).2 h1
  have e2 := (h.tag a k q').2 h2
  rw [e1] at e2
  simpa using e2

theorem Rel.mem_list (h : Rel cap s S p) (k : ℤ) (a : Nat) :
    a ∈ (s.cells k).list ↔ a ∈ S ∧ kOf s.n (p a) = k := by
  rw [McCell.mem_list (h.inv k)]
  constructor
  · rintro ⟨q, hq⟩
    have ht := (h.tag a k q).2 hq
    have hS : a ∈ S := by
      by_contra hn
      rw [h.dead a hn] at ht
      cases ht
    obtain ⟨q', hq'⟩ := h.live a hS
    rw [hq'] at ht
    simp only [Option.some.injEq, Prod.mk.injEq] at ht
    exact ⟨hS, ht.1⟩
  · rintro ⟨hS, rfl⟩
    obtain ⟨q, hq⟩ := h.live a hS
    exact ⟨q, (h.tag a _ q).1 hq⟩

theorem Rel.nodup_list (h : Rel cap s S p) (k : ℤ) : (s.cells k).list.Nodup :=
  McCell.nodup_list (h.slot_inj k)

theorem Rel.list_toFinset (h : Rel cap s S p) (k : ℤ) :
    (s.cells k).list.toFinset = inCell s.n S p k := by
  ext a
  rw [List.mem_toFinset, h.mem_list k, inCell, Finset.mem_filter]

theorem Rel.card (h : Rel cap s S p) (k : ℤ) :
    (s.cells k).nAtom = (inCell s.n S p k).card := by
  rw [← h.list_toFinset, List.toFinset_card_of_nodup (h.nodup_list k), (h.inv k).count,
    list_eq (h.inv k)]

theorem Rel.list_length_le (h : Rel cap s S p) (k : ℤ) : (s.cells k).list.length ≤ cap := by
  rw [list_eq (h.inv k)]
  exact le_trans (List.length_filterMap_le _ _) (by simp)

theorem rel_setup {lengths : Vec} {cutoff : ℝ} {s : CL} (hs : setup lengths cutoff = some s)
    (p : Nat → Vec) : Rel cap s ∅ p := by
  unfold setup at hs
  split at hs
  · cases hs
  simp only at hs
  split at hs
  · cases hs
  simp only [Option.some.injEq] at hs
  subst hs
  constructor
  · intro i; exact axisCells_pos _ _
  · intro k; exact inv_clear cap
  · intro a k q; simp [Cell.clear]
  · intro a ha; simp at ha
  · intro a ha; simp at ha
  · intro a _; rfl

/-- Adding an absent atom to the cell of its position. -/
theorem rel_addTo (h : Rel cap s S p) {a : Nat} (ha : a ∉ S) {u : Vec}
    (hu : ∀ i, 0 ≤ u i ∧ u i < 1) (hroom : (inCell s.n S p (kOf s.n u)).card + 1 < cap) :
    ∃ s', s.addTo cap a (kOf s.n u) = .ok s' ∧ s'.n = s.n ∧
      Rel cap s' (insert a S) (Function.update p a u) := by
  set k := kOf s.n u with hk
  obtain ⟨c', hadd, hinv, hlt, hhole, hat, hn⟩ := inv_add (h.inv k) a (by
    left; rw [h.card]; exact_mod_cast hroom)
  refine ⟨{ n := s.n, cells := Function.update s.cells k c',
            tags := Function.update s.tags a (some (k, (s.cells k).firstEmpty)) },
    by simp only [CL.addTo, hadd], rfl, ?_⟩
  have htag : s.tags a = none := h.dead a ha
  constructor
  · exact h.npos
  · intro k'
    by_cases hkk : k' = k
    · subst hkk; simp only [Function.update_self]; exact hinv
    · simp only [Function.update_of_ne hkk]; exact h.inv k'
  · intro b k' q
    by_cases hb : b = a
    · subst hb
      simp only [Function.update_self, Option.some.injEq, Prod.mk.injEq]
      by_cases hkk : k' = k
      · subst hkk
        simp only [Function.update_self, true_and]
        rw [hat]
        by_cases hq : q = (s.cells k).firstEmpty
        · subst hq; simp
        · rw [Function.update_of_ne hq]
          constructor
          · intro e; exact absurd e.symm hq
          · intro e
            have := (h.tag b k q).2 e
            rw [htag] at this; cases this
      · simp only [Function.update_of_ne hkk]
        constructor
        · rintro ⟨e, _⟩; exact absurd e.symm hkk
        · intro e
          have := (h.tag b k' q).2 e
          rw [htag] at this; cases this
    · simp only [Function.update_of_ne hb]
      by_cases hkk : k' = k
      · subst hkk
        simp only [Function.update_self]
        rw [hat]
        by_cases hq : q = (s.cells k).firstEmpty
        · subst hq
          simp only [Function.update_self, Option.some.injEq]
          constructor
          · intro e
            have := (h.tag b k _).1 e
            rw [hhole] at this; cases this
          · intro e; exact absurd e.symm hb
        · rw [Function.update_of_ne hq]; exact h.tag b k q
      · simp only [Function.update_of_ne hkk]; exact h.tag b k' q
  · intro b hb i
    by_cases hba : b = a
    · subst hba; simp only [Function.update_self]; exact hu i
    · simp only [Function.update_of_ne hba]
      exact h.unit b (Finset.mem_of_mem_insert_of_ne hb hba) i
  · intro b hb
    by_cases hba : b = a
    · subst hba; simp only [Function.update_self]; exact ⟨_, rfl⟩
    · simp only [Function.update_of_ne hba]
      exact h.live b (Finset.mem_of_mem_insert_of_ne hb hba)
  · intro b hb
    rw [Finset.mem_insert, not_or] at hb
    simp only [Function.update_of_ne hb.1]
    exact h.dead b hb.2

/-- Deleting a live atom. -/
theorem rel_delete (h : Rel cap s S p) {a : Nat} (ha : a ∈ S) :
    ∃ s', s.deleteAtom a = .ok s' ∧ s'.n = s.n ∧ Rel cap s' (S.erase a) p := by
  obtain ⟨q, hq⟩ := h.live a ha
  have hat := (h.tag a _ q).1 hq
  refine ⟨{ n := s.n, cells := Function.update s.cells (kOf s.n (p a))
              ((s.cells (kOf s.n (p a))).deleteAtom q),
            tags := Function.update s.tags a none },
    by simp only [CL.deleteAtom, hq], rfl, ?_⟩
  set k := kOf s.n (p a) with hk
  constructor
  · exact h.npos
  · intro k'
    by_cases hkk : k' = k
    · subst hkk; simp only [Function.update_self]; exact inv_delete (h.inv k) hat
    · simp only [Function.update_of_ne hkk]; exact h.inv k'
  · intro b k' q'
    by_cases hb : b = a
    · subst hb
      simp only [Function.update_self]
      constructor
      · intro e; cases e
      · intro e
        exfalso
        by_cases hkk : k' = k
        · subst hkk
          simp only [Function.update_self, Cell.deleteAtom] at e
          by_cases hqq : q' = q
          · subst hqq; simp at e
          · rw [Function.update_of_ne hqq] at e
            exact hqq (h.slot_inj k q' q b e hat)
        · simp only [Function.update_of_ne hkk] at e
          have := (h.tag b k' q').2 e
          rw [hq] at this
          simp only [Option.some.injEq, Prod.mk.injEq] at this
          exact hkk this.1.symm
    · simp only [Function.update_of_ne hb]
      by_cases hkk : k' = k
      · subst hkk
        simp only [Function.update_self, Cell.deleteAtom]
        by_cases hqq : q' = q
        · subst hqq
          simp only [Function.update_self]
          constructor
          · intro e
            have := (h.tag b k q').1 e
            rw [hat] at this
            exact absurd (Option.some.inj this).symm hb
          · intro e; cases e
        · rw [Function.update_of_ne hqq]; exact h.tag b k q'
      · simp only [Function.update_of_ne hkk]; exact h.tag b k' q'
  · intro b hb; exact h.unit b (Finset.mem_of_mem_erase hb)
  · intro b hb
    have hba := Finset.ne_of_mem_erase hb
    simp only [Function.update_of_ne hba]
    exact h.live b (Finset.mem_of_mem_erase hb)
  · intro b hb
    by_cases hba : b = a
    · subst hba; simp only [Function.update_self]
    · simp only [Function.update_of_ne hba]
      apply h.dead
      intro hS
      exact hb (Finset.mem_erase.2 ⟨hba, hS⟩)

/-- Moving a live atom. -/
theorem rel_move (h : Rel cap s S p) (gen : Vec → Vec) {a : Nat} (ha : a ∈ S) {r : Vec}
    (hu : ∀ i, 0 ≤ gen r i ∧ gen r i < 1)
    (hroom : (inCell s.n S (Function.update p a (gen r)) (kOf s.n (gen r))).card < cap) :
    ∃ s', s.updateAtomCell gen cap a r = .ok s' ∧ s'.n = s.n ∧
      Rel cap s' S (Function.update p a (gen r)) := by
  obtain ⟨q, hq⟩ := h.live a ha
  have hidx : indexFromGen s.n (gen r) = some (kOf s.n (gen r)) := indexFromGen_eq h.npos hu
  unfold CL.updateAtomCell
  simp only [hq, hidx]
  by_cases hkk : kOf s.n (p a) = kOf s.n (gen r)
  · rw [if_neg (by simpa using hkk)]
    refine ⟨s, rfl, rfl, ?_⟩
    constructor
    · exact h.npos
    · exact h.inv
    · exact h.tag
    · intro b hb i
      by_cases hba : b = a
      · subst hba; simp only [Function.update_self]; exact hu i
      · simp only [Function.update_of_ne hba]; exact h.unit b hb i
    · intro b hb
      by_cases hba : b = a
      · subst hba; simp only [Function.update_self]; rw [← hkk]; exact ⟨q, hq⟩
      · simp only [Function.update_of_ne hba]; exact h.live b hb
    · exact h.dead
  · rw [if_pos (by simpa using hkk)]
    obtain ⟨s1, h1, hn1, hr1⟩ := rel_delete h ha
    simp only [h1]
    have hroom' : (inCell s1.n (S.erase a) p (kOf s1.n (gen r))).card + 1 < cap := by
      rw [hn1]
      refine lt_of_le_of_lt ?_ hroom
      have hnot : a ∉ inCell s.n (S.erase a) p (kOf s.n (gen r)) := by
        simp [inCell]
      rw [← Finset.card_insert_of_notMem hnot]
      apply Finset.card_le_card
      intro b hb
      rw [Finset.mem_insert] at hb
      rw [inCell, Finset.mem_filter]
      rcases hb with rfl | hb
      · exact ⟨ha, by simp⟩
      · rw [inCell, Finset.mem_filter, Finset.mem_erase] at hb
        exact ⟨hb.1.2, by rw [Function.update_of_ne hb.1.1]; exact hb.2⟩
    obtain ⟨s2, h2, hn2, hr2⟩ := rel_addTo hr1 (Finset.notMem_erase a S) hu hroom'
    rw [hn1] at h2
    refine ⟨s2, h2, hn2.trans hn1, ?_⟩
    rwa [Finset.insert_erase ha] at hr2

/-- Adding through the public interface. -/
theorem rel_add (h : Rel cap s S p) (gen : Vec → Vec) {a : Nat} (ha : a ∉ S) {r : Vec}
    (hu : ∀ i, 0 ≤ gen r i ∧ gen r i < 1)
    (hroom : (inCell s.n S p (kOf s.n (gen r))).card + 1 < cap) :
    ∃ s', s.addAtom gen cap a r = .ok s' ∧ s'.n = s.n ∧
      Rel cap s' (insert a S) (Function.update p a (gen r)) := by
  have hidx : indexFromGen s.n (gen r) = some (kOf s.n (gen r)) := indexFromGen_eq h.npos hu
  unfold CL.addAtom
  simp only [hidx]
  exact rel_addTo h ha hu hroom

theorem kOf_range {n : IVec} (hn : ∀ i, 0 < n i) {u : Vec} (hu : ∀ i, 0 ≤ u i ∧ u i < 1) :
    0 ≤ kOf n u ∧ kOf n u < n 1 * n 2 * n 0 := cellIndex_range (box_inGrid hn hu)

/-- The number of atoms reported is the number of live atoms. -/
theorem Rel.nAtom (h : Rel cap s S p) : s.nAtom = S.card := by
  unfold CL.nAtom
  rw [show (List.range s.tot.toNat).map (fun k : Nat => (s.cells (k : ℤ)).nAtom)
      = (List.range s.tot.toNat).map (fun k : Nat => ((inCell s.n S p k).card : ℤ)) from
    List.map_congr_left (fun k _ => h.card k)]
  have hsum : ((List.range s.tot.toNat).map
      (fun k : Nat => ((inCell s.n S p k).card : ℤ))).sum
      = ∑ k ∈ Finset.range s.tot.toNat, ((inCell s.n S p k).card : ℤ) := rfl
  rw [hsum, ← Nat.cast_sum]
  congr 1
  rw [Finset.card_eq_sum_card_fiberwise (f := fun a => (kOf s.n (p a)).toNat)
    (t := Finset.range s.tot.toNat)]
  · refine Finset.sum_congr rfl fun k _ => ?_
    congr 1
    ext a
    simp only [inCell, Finset.mem_filter]
    refine and_congr_right fun ha => ?_
    have := kOf_range h.npos (h.unit a ha)
    omega
  · intro a ha
    have := kOf_range h.npos (h.unit a ha)
    simp only [Finset.coe_range, Set.mem_Iio, CL.tot]
    omega

end Verif.McCellList
