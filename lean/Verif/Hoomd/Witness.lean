/-
Concrete cases that meet the hypotheses of the theorems on HOOMD configuration files.
-/
import Verif.Hoomd.Props
import Mathlib.Tactic.NormNum

set_option autoImplicit false

namespace Verif.Hoomd

open Verif.Cpp
open Verif.Cpp.Out

/-- Two types. -/
def types0 : List (ℤ × String) := [(0, "A"), (1, "B")]

theorem accept0 : ∃ m, TypeMap.empty.read types0 = ok m :=
  (C88_accept types0).1.2 (by simp [types0])

/-- A name given twice is refused, `C88_accept`. -/
example : TypeMap.empty.read [(0, "A"), (1, "A")] = Out.throw :=
  (C88_accept _).2.2 (by simp)

/-- Two bonds, numbered from 7, are written and read back, `C88_bonds`, `C88_written`. -/
example : ∃ m f, TypeMap.empty.read types0 = ok m ∧
    writeGroups "bond" m [⟨7, 1, [4, 5]⟩, ⟨8, 0, [5, 6]⟩] = ok f ∧
    readGroups m (f ++ []) = ok ([⟨0, 1, [4, 5]⟩, ⟨1, 0, [5, 6]⟩], []) := by
  obtain ⟨m, hm⟩ := accept0
  obtain ⟨f, hf⟩ := (C88_written types0 m hm "bond" [⟨7, 1, [4, 5]⟩, ⟨8, 0, [5, 6]⟩]).2 (by simp [types0])
  exact ⟨m, f, hm, hf, by rw [C88_bonds types0 m hm "bond" _ (by simp) f [] hf]; simp⟩

/-- No decimal number is a word of one letter. -/
theorem numbers0 (s : String) (c : Char) (hs : s.toList = [c]) (hc : c.isDigit = false) (i : ℤ) :
    toString i ≠ s := by
  intro h
  have h1 : (toString i).toList = [c] := by rw [h, hs]
  cases i with
  | ofNat n =>
    have h2 : (Nat.repr n).toList = [c] := h1
    rw [Nat.toList_repr] at h2
    have := Nat.isDigit_of_mem_toDigits (b := 10) (n := n) (c := c) (by omega) (by omega) (by rw [h2]; simp)
    rw [hc] at this; exact absurd this (by simp)
  | negSucc n =>
    have h2 : ("-" ++ Nat.repr (n + 1)).toList = [c] := h1
    rw [String.toList_append, Nat.toList_repr] at h2
    have h3 := congrArg List.length h2
    simp at h3

/-- One angle is written and not read, `C88_angles_violated`. -/
example : ∃ m f, TypeMap.empty.read types0 = ok m ∧ writeGroups "angle" m [⟨0, 1, [4, 5, 6]⟩] = ok f ∧
    readGroups m (f ++ []) = Out.throw := by
  obtain ⟨m, hm⟩ := accept0
  obtain ⟨f, hf⟩ := (C88_written types0 m hm "angle" [⟨0, 1, [4, 5, 6]⟩]).2 (by simp [types0])
  refine ⟨m, f, hm, hf, C88_angles_violated types0 m hm ?_ "angle" _ (by simp) (by simp) f [] hf⟩
  intro i h
  simp only [types0, List.map_cons, List.map_nil, List.mem_cons, List.not_mem_nil, or_false] at h
  rcases h with h | h
  · exact numbers0 "A" 'A' (by simp) (by decide) i h
  · exact numbers0 "B" 'B' (by simp) (by decide) i h

/-- An auxiliary file is read, and no dihedral is written, `C88_dihedrals_violated`. -/
example : ∃ m, readAuxiliary types0 types0 types0 = ok m ∧
    writeGroups "dihedral" m.dihedral [⟨0, 0, [0, 1, 2, 3]⟩] = Out.throw := by
  obtain ⟨a, ha⟩ := accept0
  have h := (C88_auxiliary types0 types0 types0 ⟨a, a, a, TypeMap.empty⟩).2 ⟨ha, ha, ha, rfl⟩
  exact ⟨_, h, (C88_dihedrals_violated types0 types0 types0 _ h "dihedral").1 _ (by simp)⟩

/-- A position in the upper half of the cell, `C88_position`. -/
example : shift 10 (written 10 7) = 7 := (C88_position 10 7 (by norm_num) (by norm_num) (by norm_num)).2.2

/-- A position outside the cell, `C88_period`. -/
example : ∃ k : ℤ, shift 10 (written 10 (-3)) = -3 + k * 10 := by
  obtain ⟨k, h, _⟩ := C88_period 10 (-3) (by norm_num) (by norm_num) (by norm_num)
  exact ⟨k, h⟩

/-- Two atoms stored with the second first, `C88_order_violated`; in the other order they are read as they
were, `C88_ordered`. -/
example : ∃ m, TypeMap.empty.read types0 = ok m ∧
    (∃ f, writeAtoms 10 m [⟨1, 0, 2⟩, ⟨0, 1, 7⟩] = ok f ∧
      readAtoms 10 m f = ok [⟨0, 0, 2⟩, ⟨1, 1, 7⟩]) ∧
    (∃ f, writeAtoms 10 m [⟨0, 0, 2⟩, ⟨1, 1, 7⟩] = ok f ∧
      readAtoms 10 m f = ok [⟨0, 0, 2⟩, ⟨1, 1, 7⟩]) := by
  obtain ⟨m, hm⟩ := accept0
  have hA : m.name 0 = ok "A" := ((C88_types types0 m hm 0 "A").2).2 (by simp [types0])
  have hB : m.name 1 = ok "B" := ((C88_types types0 m hm 1 "B").2).2 (by simp [types0])
  have w1 : ∃ f, writeAtoms 10 m [⟨1, 0, 2⟩, ⟨0, 1, 7⟩] = ok f := by
    simp [writeAtoms, loop_cons, loop_nil, hA, hB, ok_bind]
  have w2 : ∃ f, writeAtoms 10 m [⟨0, 0, 2⟩, ⟨1, 1, 7⟩] = ok f := by
    simp [writeAtoms, loop_cons, loop_nil, hA, hB, ok_bind]
  obtain ⟨f, hf⟩ := w1
  obtain ⟨g, hg⟩ := w2
  have c1 : ∀ a ∈ ([⟨1, 0, 2⟩, ⟨0, 1, 7⟩] : List Atom), 0 ≤ a.pos ∧ a.pos < 10 := by
    intro a ha; simp at ha; rcases ha with h | h <;> subst h <;> norm_num
  have c2 : ∀ a ∈ ([⟨0, 0, 2⟩, ⟨1, 1, 7⟩] : List Atom), 0 ≤ a.pos ∧ a.pos < 10 := by
    intro a ha; simp at ha; rcases ha with h | h <;> subst h <;> norm_num
  refine ⟨m, hm, ⟨f, hf, ?_⟩, g, hg, ?_⟩
  · rw [C88_atoms types0 m hm 10 (by norm_num) _ c1 f hf]; simp
  · refine C88_ordered types0 m hm 10 (by norm_num) _ c2 ?_ g hg
    intro k hk
    match k, hk with
    | 0, _ => simp
    | 1, _ => simp

end Verif.Hoomd
