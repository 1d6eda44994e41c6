/-
Non-trivial instances of C82.
-/
import Verif.Select.Coeff
import Mathlib.Tactic.NormNum
import Mathlib.Tactic.FinCases
import Mathlib.Tactic.IntervalCases

set_option autoImplicit false

namespace Verif.Select

open Verif.Cpp
open Verif.Cpp.Out

/-- Two molecules of two atoms each, types 0 and 1. -/
def four : Atoms := ⟨fun a => a / 2, fun a => a % 2⟩

/-- C82_match: intermolecular pairs of types 0 and 1. -/
example : (⟨Kind.inter, 0, 1, false⟩ : Sel).match four 0 3 = true ∧
    (⟨Kind.inter, 0, 1, false⟩ : Sel).match four 3 0 = false ∧
    (⟨Kind.inter, 0, 1, false⟩ : Sel).match four 0 1 = false := by decide

/-- C82_once: a pair of types (1, any) in the order of the selector only, whatever the indices. -/
example : (⟨Kind.all, 1, -1, true⟩ : Sel).match four 3 0 = true ∧
    (⟨Kind.all, 1, -1, true⟩ : Sel).match four 0 3 = false ∧
    (⟨Kind.all, 1, -1, true⟩ : Sel).match four 1 3 = true ∧
    (⟨Kind.all, 1, -1, true⟩ : Sel).match four 3 1 = false := by decide

/-- C82_energy: one cell with all atoms, energy 1 for all pairs, bonded pairs masked. -/
example : mcEnergy ⟨Kind.all, -1, -1, true⟩ four (fun i j => i / 2 == j / 2) (fun _ _ => 1)
    [⟨[0, 1, 2, 3], [0, 1, 2, 3]⟩] = 4 := by
  rw [C82_energy ⟨Kind.all, -1, -1, true⟩ four (fun i j => i / 2 == j / 2) (fun _ _ => 1) 4 _ rfl
    (fun i j => by rw [Bool.eq_iff_iff, beq_iff_eq, beq_iff_eq]; exact eq_comm) (fun _ _ => rfl) (by decide) (by decide)]
  · have hs : ∀ i j, Selected ⟨Kind.all, -1, -1, true⟩ four i j ↔ i ≠ j := by
      intro i j; simp [Selected]
    simp only [hs]
    simp only [Finset.sum_range_succ, Finset.sum_range_zero]
    norm_num
  · intro i j hi hj _ _
    interval_cases i <;> interval_cases j <;> decide

/-- C82_double_violated: one pair of energy 3 gives 6. -/
example : ∃ r, coefficients ⟨Kind.all, -1, -1, false⟩ four (fun _ _ => 3) 5 2 [(0, 3)] = ok r ∧ r.1 = 6 := by
  obtain ⟨r, h1, h2⟩ := C82_double_violated ⟨Kind.all, -1, -1, false⟩ four (fun _ _ => 3) 5 2 [(0, 3)]
    (by decide) (by decide) rfl rfl (fun _ _ => rfl)
  refine ⟨r, h1, ?_⟩
  rw [h2]
  have hs : Selected ⟨Kind.all, -1, -1, false⟩ four 0 3 := by simp [Selected]
  simp only [total, List.map_cons, List.map_nil, List.sum_cons, List.sum_nil, if_pos (Or.inl hs)]
  norm_num

/-- C82_order_violated: the same pair in two orders. -/
example : (∃ r, coefficients ⟨Kind.all, 0, 1, false⟩ four (fun _ _ => 3) 5 2 [(0, 3)] = ok r ∧ r.1 = 3) ∧
    (∃ r, coefficients ⟨Kind.all, 0, 1, false⟩ four (fun _ _ => 3) 5 2 [(3, 0)] = ok r ∧ r.1 = 0) :=
  C82_order_violated ⟨Kind.all, 0, 1, false⟩ four (fun _ _ => 3) 5 2 0 3 rfl rfl (by decide)
    (by decide) rfl rfl (by decide) (by decide) (by decide)

/-- Four atoms at distance 1 in volume 8. -/
def box : Config := ⟨[0, 1, 2, 3], four, fun _ _ => 1, 8⟩

theorem box_typed : box.Typed 2 := by
  unfold Config.Typed box four
  decide

/-- C82_rdf_norm: one sample of four atoms in volume 8. -/
example : ([box].foldl (Rdf.sample ⟨Kind.all, -1, -1, false⟩ 2) Rdf.new.setup).norm = 2 := by
  rw [C82_rdf_norm _ _ _ (by simpa using box_typed)]
  norm_num [norms, box]

/-- C82_rdf_again_violated: the same sample in a second run. -/
example : (2 : ℝ) < ([box].foldl (Rdf.sample ⟨Kind.all, -1, -1, false⟩ 2)
    ([box].foldl (Rdf.sample ⟨Kind.all, -1, -1, false⟩ 2) Rdf.new.setup).setup).norm := by
  have := C82_rdf_again_violated ⟨Kind.all, -1, -1, false⟩ 2 box [] [box] (by simpa using box_typed)
    (by simpa using box_typed) (by norm_num [box]) (by decide) (by decide)
  have e : norms [box] / ([box] : List Config).length = 2 := by norm_num [norms, box]
  rwa [e] at this

/-- C82_rdf_norm_violated: two atoms of each type. -/
example : (Rdf.new.sample ⟨Kind.all, 0, 1, false⟩ 2 box).dists.length = 4 ∧
    (4 : ℝ) / 8 < (Rdf.new.sample ⟨Kind.all, 0, 1, false⟩ 2 box).norm := by
  obtain ⟨h1, h2⟩ := C82_rdf_norm_violated ⟨Kind.all, 0, 1, false⟩ 2 box box_typed rfl rfl (by decide)
    (by decide) (by decide) (by decide) (by norm_num [box])
  have n1 : numberOf box 0 = 2 := by decide
  have n2 : numberOf box 1 = 2 := by decide
  rw [n1, n2] at h1 h2
  refine ⟨h1, ?_⟩
  have : box.volume = 8 := rfl
  rw [this] at h2
  norm_num at h2 ⊢
  exact h2

end Verif.Select
