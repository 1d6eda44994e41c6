/-
Cases that meet the hypotheses of the theorems C77.
-/
import Verif.PpStore.Props

set_option autoImplicit false

namespace Verif.PpStore

open Verif.Cpp
open Verif.Cpp.Out

/-- Memory of four atoms, all zero. -/
def memory : Store := ⟨4, fun _ => ⟨0, 0, 0, 0⟩, 0, fun _ => none, none⟩

/-- Four atoms in reverse order, two molecules of two atoms. -/
def lines (k : ℕ) : Line := ⟨3 - k, 0, (3 - k) / 2, (3 - k) % 2⟩

theorem lines_good : ∀ k < 4, (lines k).Good true false true 4 k ∧ 0 ≤ ((lines k).atom true true ⟨0, 0, 0, 0⟩).id ∧
    ((lines k).atom true true ⟨0, 0, 0, 0⟩).id < 4 := by
  intro k hk
  simp only [Line.Good, Line.atom, lines, if_true]
  refine ⟨⟨fun _ => ⟨by omega, fun h => by simp at h, by push_cast; omega⟩, fun _ => ⟨by omega, by omega, by omega⟩⟩,
    by omega, by omega⟩

/-- The file is read; the atom with index 3 is the first in the storage. -/
example : ∃ s, readAtoms true false true 4 lines memory.clear = ok s ∧ s.size = 4 ∧ s.ptrs 3 = some 0 := by
  obtain ⟨h1, h2⟩ := C77_read (hasIndex := true) (ordered := false) (context := true)
    (lines := lines) (s := memory) rfl (n := 4) le_rfl
  obtain ⟨s, h⟩ := h1.2 lines_good
  obtain ⟨-, g1, -, -, g2⟩ := h2 s h
  refine ⟨s, h, g1, (g2 3 0).2 ⟨by omega, rfl, fun k' a b => ?_⟩⟩
  simp only [Line.atom, lines, if_true]
  omega

/-- Two species: two molecules of three atoms, one of two. -/
def two (atoms : Store) : Conf :=
  ⟨atoms, 2, fun s => ⟨s, if s = 0 then 2 else 1, if s = 0 then 3 else 2, fun _ => none, fun _ => 0, 0⟩⟩

/-- Eight atoms, in reverse order. -/
def eight : Store :=
  ⟨8, fun k => ⟨7 - k, -1, -1, -1⟩, 8, fun j => if j < 8 then some (7 - j) else none, none⟩

theorem eight_full : eight.Full := by
  refine ⟨le_rfl, fun k hk => ?_, fun j k => ?_⟩
  · simp only [eight] at hk ⊢
    omega
  · simp only [eight]
    constructor
    · intro h
      split_ifs at h with hj
      cases h
      omega
    · rintro ⟨h1, h2⟩
      rw [if_pos (by omega)]
      congr 1
      omega

/-- The last atom of the second molecule is the one with index 5; all species are valid. -/
example : ∃ c1 c2, (two eight).setAtomContexts = ok c1 ∧ c1.addAtomsToSpecies = ok c2 ∧
    (c2.sp 0).ptrs 5 = some 2 ∧ (c2.sp 1).isValid c2.atoms.mem = ok () := by
  obtain ⟨c1, c2, h1, h2, -, h3, h4⟩ := C77_ordered (c := two eight) eight_full (fun s => rfl)
    (by decide) (by decide) (fun s hs => by simp only [two]; split_ifs <;> omega)
  refine ⟨c1, c2, h1, h2, ?_, h4 1 (by decide)⟩
  obtain ⟨k, k1, k2, -, k3⟩ := h3 0 1 2 ⟨by decide, by decide, by decide⟩
  have k4 : (two eight).rank 0 1 2 = 5 := by decide
  rw [k4] at k2
  have k5 : ((two eight).atoms.mem k).id = 7 - k := rfl
  have k6 : k = 2 := by rw [k5] at k2; push_cast at k2; omega
  rw [k6] at k3
  exact k3

/-- Bonds of the two species. -/
example : (two eight).makeGroups (fun s => if s = 0 then [⟨0, [0, 1]⟩, ⟨0, [1, 2]⟩] else [⟨1, [0, 1]⟩]) 0 [] =
    ok [⟨0, 0, [0, 1]⟩, ⟨1, 0, [1, 2]⟩, ⟨2, 0, [3, 4]⟩, ⟨3, 0, [4, 5]⟩, ⟨4, 1, [6, 7]⟩] := by
  rw [C77_groups (Or.inl rfl)]
  rfl

/-- A molecule with one atom missing is not valid. -/
example : ∃ c c' : Conf, c.addAtomsToSpecies = ok c' ∧ (c'.sp 0).isValid c'.atoms.mem ≠ ok () := by
  let st : Store := ⟨1, fun _ => ⟨0, 0, 0, 1⟩, 1, fun _ => some 0, none⟩
  have hi : (two st).Ids := fun s => rfl
  obtain ⟨h1, -⟩ := C77_add (c := two st) hi (by decide)
  obtain ⟨c', h⟩ := h1.2 ⟨fun k hk => by simp [Conf.In, two, st], fun k k' a b => by
    simp only [two, st] at b; omega⟩
  refine ⟨two st, c', h, fun hv => ?_⟩
  rw [C77_valid hi (by decide) h (by decide) (by decide)] at hv
  rcases hv 0 0 (by decide) rfl le_rfl with g | g
  · obtain ⟨k, -, e⟩ := g 0 (by decide)
    simp [Atom.ctx, two, st] at e
  · exact g 0 (by decide) ⟨rfl, rfl⟩

/-- Two atoms with one index: one cannot be found. -/
example : ∃ s', readAtoms true false false 2 (fun _ => ⟨0, 0, 0, 0⟩) memory.clear = ok s' ∧ s'.size = 2 ∧
    ∀ j, s'.ptrs j ≠ some 0 :=
  C77_duplicate_violated (s := memory) rfl (by decide) (fun _ _ => ⟨by decide, by decide⟩)
    (k := 0) (k' := 1) (by decide) (by decide) rfl

/-- An ordered file of four atoms without indices. -/
example : ∃ s', readAtoms false true false 4 lines memory.clear = ok s' ∧ s'.size = 4 ∧
    s'.ptrs 0 = some 3 ∧ ∀ j, 0 < j → s'.ptrs j = none :=
  C77_noindex_violated (s := memory) rfl le_rfl (fun _ => rfl) (by decide)

/-- A species that is read, and then read again. -/
example : ∃ p1 : Spec, Spec.read ⟨0, 0, 0, fun _ => none, fun _ => 0, 0⟩ 2 3 = ok p1 ∧
    p1.clear.read 2 3 = throw :=
  ⟨_, rfl, (C77_reread_violated ⟨0, 0, 0, fun _ => none, fun _ => 0, 0⟩ 2 3 2 3 _ rfl).2⟩

end Verif.PpStore
