/-
What validation of a species means, and the structures made by the builder
loops.
-/
import Verif.Species.Lemmas
import Mathlib.Data.Int.Interval
import Mathlib.Algebra.BigOperators.Ring.Finset
import Mathlib.Tactic.Push

set_option autoImplicit false

namespace Verif.Species

open Verif.Cpp
open Verif.Cpp.Out

/-- Specification of a consistent set of groups of one kind, for a molecule of
`nAtom` atoms: the array has the declared size, each group consists of `N`
distinct atoms of the molecule, and the list kept for each atom contains each
of the groups to which the atom belongs once and nothing else. -/
structure PartOK (N : ℕ) (nAtom : ℤ) (p : Part) : Prop where
  len : (p.grps.length : ℤ) = p.n
  size : ∀ g ∈ p.grps, g.atoms.length = N
  range : ∀ g ∈ p.grps, ∀ a ∈ g.atoms, 0 ≤ a ∧ a < nAtom
  distinct : ∀ g ∈ p.grps, g.atoms.Nodup
  once : ∀ a : ℕ, (a : ℤ) < nAtom → (p.ids a).Nodup
  listed : ∀ a : ℕ, (a : ℤ) < nAtom → ∀ x : ℤ,
    x ∈ p.ids a ↔ ∃ (i : ℕ) (g : Grp), x = i ∧ p.grps[i]? = some g ∧ (a : ℤ) ∈ g.atoms

/-- Double counting of the incidences of groups and atoms. -/
theorem sum_incidence (gs : List Grp) (m : ℕ)
    (hr : ∀ g ∈ gs, ∀ a ∈ g.atoms, 0 ≤ a ∧ a < (m : ℤ)) (hn : ∀ g ∈ gs, g.atoms.Nodup) :
    ∑ a ∈ Finset.range m, (gs.countP fun g => decide ((a : ℤ) ∈ g.atoms))
      = (gs.map fun g => g.atoms.length).sum := by
  induction gs with
  | nil => simp
  | cons g gs ih =>
    simp only [List.countP_cons, List.map_cons, List.sum_cons, Finset.sum_add_distrib]
    rw [ih (fun g hg => hr g (by simp [hg])) (fun g hg => hn g (by simp [hg])), add_comm]
    congr 1
    have hnd := hn g (by simp)
    have hrg := hr g (by simp)
    have : (∑ a ∈ Finset.range m, if decide ((a : ℤ) ∈ g.atoms) = true then 1 else 0)
        = ((Finset.range m).filter fun a : ℕ => (a : ℤ) ∈ g.atoms).card := by
      rw [Finset.card_eq_sum_ones, Finset.sum_filter]; simp
    rw [this, ← List.toFinset_card_of_nodup hnd]
    refine Finset.card_bij (fun a _ => (a : ℤ)) ?_ ?_ ?_
    · intro a ha
      simpa using (Finset.mem_filter.mp ha).2
    · intro a _ b _ h; exact_mod_cast h
    · intro b hb
      have hb' : b ∈ g.atoms := by simpa using hb
      obtain ⟨h0, h1⟩ := hrg b hb'
      refine ⟨b.toNat, ?_, by omega⟩
      rw [Finset.mem_filter, Finset.mem_range]
      refine ⟨by omega, ?_⟩
      rwa [Int.toNat_of_nonneg h0]

/-- Number of groups containing an atom, as the number of their indices. -/
theorem countP_eq_card (gs : List Grp) (P : Grp → Bool) :
    gs.countP P = ((Finset.range gs.length).filter fun i => (gs[i]?).any P).card := by
  induction gs using List.reverseRecOn with
  | nil => simp
  | append_singleton gs g ih =>
    rw [List.countP_append, List.length_append, List.length_singleton, Finset.range_add_one,
      Finset.filter_insert]
    have hsame : ((Finset.range gs.length).filter fun i => ((gs ++ [g])[i]?).any P)
        = (Finset.range gs.length).filter fun i => (gs[i]?).any P := by
      refine Finset.filter_congr fun i hi => ?_
      rw [List.getElem?_append_left (by simpa using hi)]
    rw [hsame, ih]
    by_cases hg : P g
    · rw [if_pos (by simp [hg]), Finset.card_insert_of_notMem (by simp)]
      simp [hg]
    · rw [if_neg ?_]
      · simp [hg]
      · simpa using hg

/-- **Validation is exact**: for groups of the right size, the checks of one
section succeed exactly for consistent sets of groups. -/
theorem partValid_iff (N : ℕ) (m : ℕ) (p : Part) (hpos : 0 < p.n)
    (hsize : ∀ g ∈ p.grps, g.atoms.length = N) :
    partValid N m p = ok () ↔ PartOK N m p := by
  unfold partValid
  rw [if_pos hpos]
  simp only [bind_eq_ok, check_eq_ok, Int.toNat_natCast]
  have getD_of {i : ℕ} {g : Grp} (h : p.grps[i]? = some g) :
      p.grps.getD i (nullGrp 0) = g := by simp [List.getD, h]
  constructor
  · rintro ⟨_, hlen, _, hgrp, d, hent, hcount⟩
    rw [loop_unit_ok] at hgrp
    obtain ⟨hent, hd⟩ := (allEntries_iff p m d).mp hent
    rw [hd] at hcount
    have hgrp' : ∀ (i : ℕ) (g : Grp), p.grps[i]? = some g →
        (∀ a ∈ g.atoms, (0 ≤ a ∧ a < (m : ℤ)) ∧ (i : ℤ) ∈ p.ids a.toNat) ∧ g.atoms.Nodup := by
      intro i g hi
      have hlt : i < p.grps.length := (List.getElem?_eq_some_iff.mp hi).1
      have := hgrp i (by simp only [List.mem_range]; omega)
      rwa [checkGroup_iff, getD_of hi] at this
    have hmem : ∀ g ∈ p.grps, ∃ i, p.grps[i]? = some g := fun g hg => List.mem_iff_getElem?.mp hg
    have hrange : ∀ g ∈ p.grps, ∀ a ∈ g.atoms, 0 ≤ a ∧ a < (m : ℤ) := by
      intro g hg a ha
      obtain ⟨i, hi⟩ := hmem g hg
      exact ((hgrp' i g hi).1 a ha).1
    have hdist : ∀ g ∈ p.grps, g.atoms.Nodup := by
      intro g hg
      obtain ⟨i, hi⟩ := hmem g hg
      exact (hgrp' i g hi).2
    have hlisted : ∀ a : ℕ, (a : ℤ) < m → ∀ x : ℤ,
        x ∈ p.ids a ↔ ∃ (i : ℕ) (g : Grp), x = i ∧ p.grps[i]? = some g ∧ (a : ℤ) ∈ g.atoms := by
      intro a ha x
      constructor
      · intro hx
        obtain ⟨⟨h0, h1⟩, h2⟩ := hent a (by exact_mod_cast ha) x hx
        have hlt : x.toNat < p.grps.length := by omega
        refine ⟨x.toNat, p.grps[x.toNat], by omega, List.getElem?_eq_getElem hlt, ?_⟩
        rwa [getD_of (List.getElem?_eq_getElem hlt)] at h2
      · rintro ⟨i, g, rfl, hi, hmem⟩
        exact ((hgrp' i g hi).1 _ hmem).2
    -- the counting argument
    have hcard : ∀ a : ℕ, a < m → (p.ids a).toFinset.card
        = p.grps.countP fun g => decide ((a : ℤ) ∈ g.atoms) := by
      intro a ha
      rw [countP_eq_card]
      symm
      refine Finset.card_bij (fun i _ => (i : ℤ)) ?_ ?_ ?_
      · intro i hi
        obtain ⟨-, hg⟩ := Finset.mem_filter.mp hi
        obtain ⟨g, hg, hm⟩ := (Option.any_eq_true _ _).mp hg
        rw [List.mem_toFinset, hlisted a (by exact_mod_cast ha)]
        exact ⟨i, g, rfl, hg, by simpa using hm⟩
      · intro i _ j _ h; exact_mod_cast h
      · intro x hx
        rw [List.mem_toFinset, hlisted a (by exact_mod_cast ha)] at hx
        obtain ⟨i, g, rfl, hg, hm⟩ := hx
        refine ⟨i, Finset.mem_filter.mpr ⟨?_, (Option.any_eq_true _ _).mpr ⟨g, hg, by simpa using hm⟩⟩, rfl⟩
        exact Finset.mem_range.mpr (List.getElem?_eq_some_iff.mp hg).1
    have hlens : (p.grps.map fun g => g.atoms.length).sum = N * p.grps.length := by
      rw [List.map_congr_left hsize]
      simp [mul_comm]
    have hle : ∀ a ∈ Finset.range m, (p.ids a).toFinset.card ≤ (p.ids a).length :=
      fun a _ => List.toFinset_card_le _
    have htot : ∑ a ∈ Finset.range m, (p.ids a).toFinset.card
        = ∑ a ∈ Finset.range m, (p.ids a).length := by
      rw [Finset.sum_congr rfl fun a ha => hcard a (Finset.mem_range.mp ha),
        sum_incidence p.grps m hrange hdist, hlens]
      have : ((∑ a ∈ Finset.range m, (p.ids a).length : ℕ) : ℤ) = N * p.n := by
        push_cast; exact hcount
      rw [← hlen] at this
      exact_mod_cast this.symm
    have heach := (Finset.sum_eq_sum_iff_of_le hle).mp htot
    refine ⟨hlen, hsize, hrange, hdist, ?_, hlisted⟩
    intro a ha
    have := heach a (Finset.mem_range.mpr (by exact_mod_cast ha))
    rw [List.card_toFinset] at this
    have h2 := (List.dedup_sublist (p.ids a)).eq_of_length this
    rw [← h2]
    exact List.nodup_dedup _
  · intro h
    refine ⟨(), h.len, (), ?_, ∑ a ∈ Finset.range m, ((p.ids a).length : ℤ), ?_, ?_⟩
    · rw [loop_unit_ok]
      intro i hi
      have hlt : i < p.grps.length := by
        have := h.len; simp only [List.mem_range] at hi; omega
      have hi' := List.getElem?_eq_getElem hlt
      rw [getD_of hi', checkGroup_iff]
      refine ⟨fun a ha => ?_, h.distinct _ (List.getElem_mem hlt)⟩
      have hr := h.range _ (List.getElem_mem hlt) a ha
      refine ⟨hr, (h.listed a.toNat (by omega) i).mpr ⟨i, _, rfl, hi', ?_⟩⟩
      rwa [Int.toNat_of_nonneg hr.1]
    · rw [allEntries_iff]
      refine ⟨?_, rfl⟩
      intro a ha x hx
      obtain ⟨i, g, rfl, hi, hm⟩ := (h.listed a (by exact_mod_cast ha) x).mp hx
      have hlt := (List.getElem?_eq_some_iff.mp hi).1
      have := h.len
      refine ⟨⟨by omega, by omega⟩, ?_⟩
      rw [Int.toNat_natCast, getD_of hi]; exact hm
    · have hcard : ∀ a ∈ Finset.range m, (p.ids a).length
          = p.grps.countP fun g => decide ((a : ℤ) ∈ g.atoms) := by
        intro a ha
        have ha' : (a : ℤ) < m := by exact_mod_cast Finset.mem_range.mp ha
        rw [countP_eq_card, ← List.toFinset_card_of_nodup (h.once a ha')]
        symm
        refine Finset.card_bij (fun i _ => (i : ℤ)) ?_ ?_ ?_
        · intro i hi
          obtain ⟨-, hg⟩ := Finset.mem_filter.mp hi
          obtain ⟨g, hg, hm⟩ := (Option.any_eq_true _ _).mp hg
          rw [List.mem_toFinset, h.listed a ha']
          exact ⟨i, g, rfl, hg, by simpa using hm⟩
        · intro i _ j _ h; exact_mod_cast h
        · intro x hx
          rw [List.mem_toFinset, h.listed a ha'] at hx
          obtain ⟨i, g, rfl, hg, hm⟩ := hx
          refine ⟨i, Finset.mem_filter.mpr ⟨?_, (Option.any_eq_true _ _).mpr ⟨g, hg, by simpa using hm⟩⟩, rfl⟩
          exact Finset.mem_range.mpr (List.getElem?_eq_some_iff.mp hg).1
      have hlens : (p.grps.map fun g => g.atoms.length).sum = N * p.grps.length := by
        rw [List.map_congr_left h.size]
        simp [mul_comm]
      have := sum_incidence p.grps m h.range h.distinct
      rw [← Finset.sum_congr rfl hcard, hlens] at this
      rw [← h.len]
      exact_mod_cast this

/-- The groups registered by a builder loop are consistent. -/
theorem partOK_reg (N m n : ℕ) (atoms : ℕ → List ℤ) (ty : ℕ → ℤ)
    (hs : ∀ i < n, (atoms i).length = N)
    (hr : ∀ i < n, ∀ a ∈ atoms i, 0 ≤ a ∧ a < (m : ℤ)) (hn : ∀ i < n, (atoms i).Nodup) :
    PartOK N m ⟨n, (List.range n).map fun i => ⟨atoms i, ty i⟩, regIds atoms n⟩ := by
  have hget : ∀ (i : ℕ) (g : Grp),
      ((List.range n).map fun i => (⟨atoms i, ty i⟩ : Grp))[i]? = some g ↔
        i < n ∧ g = ⟨atoms i, ty i⟩ := by
    intro i g
    rw [List.getElem?_map]
    by_cases h : i < n
    · simp [h, eq_comm]
    · simp [h]
  have hmem : ∀ g ∈ (List.range n).map fun i => (⟨atoms i, ty i⟩ : Grp),
      ∃ i < n, g = ⟨atoms i, ty i⟩ := by
    intro g hg
    obtain ⟨i, hi, rfl⟩ := List.mem_map.mp hg
    exact ⟨i, List.mem_range.mp hi, rfl⟩
  refine ⟨by simp, ?_, ?_, ?_, ?_, ?_⟩
  · intro g hg; obtain ⟨i, hi, rfl⟩ := hmem g hg; exact hs i hi
  · intro g hg; obtain ⟨i, hi, rfl⟩ := hmem g hg; exact hr i hi
  · intro g hg; obtain ⟨i, hi, rfl⟩ := hmem g hg; exact hn i hi
  · intro a _
    rw [List.nodup_iff_count_le_one]
    intro x
    show (regIds atoms n a).count x ≤ 1
    by_cases hx : x ∈ regIds atoms n a
    · obtain ⟨i, hi, rfl, -⟩ := (regIds_mem _ _ _ _).mp hx
      rw [regIds_count, if_pos hi]
      exact List.nodup_iff_count_le_one.mp (hn i hi) _
    · rw [List.count_eq_zero_of_not_mem hx]; exact Nat.zero_le _
  · intro a _ x
    show x ∈ regIds atoms n a ↔ _
    rw [regIds_mem]
    constructor
    · rintro ⟨i, hi, rfl, hm⟩
      exact ⟨i, ⟨atoms i, ty i⟩, rfl, (hget _ _).mpr ⟨hi, rfl⟩, hm⟩
    · rintro ⟨i, g, rfl, hg, hm⟩
      obtain ⟨hi, rfl⟩ := (hget _ _).mp hg
      exact ⟨i, hi, rfl, hm⟩

/-- No groups. -/
theorem partOK_zero (N m : ℕ) : PartOK N m ⟨0, [], fun _ => []⟩ :=
  ⟨by simp, by simp, by simp, by simp, by simp, by simp⟩

theorem partValid_of_ok {N m : ℕ} {p : Part} (h : PartOK N m p) : partValid N m p = ok () := by
  by_cases hp : 0 < p.n
  · exact (partValid_iff N m p hp h.size).mpr h
  · simp [partValid, hp]

end Verif.Species
