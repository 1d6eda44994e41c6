/-
Concrete cases that meet the hypotheses of the theorems on DdMd configuration files of the postprocessor.
-/
import Verif.PpConf.Props
import Mathlib.Tactic.NormNum

set_option autoImplicit false

namespace Verif.PpConf

open Verif.Cpp
open Verif.Cpp.Out

/-- Atom `i` of a chain. -/
def atom0 (i : ℤ) : Atom := ⟨i, 0, 0, 0, i, (i, 0, 0), (0, 1, 0)⟩

/-- A linear chain of three atoms with two bonds, and the angles given. -/
def chain0 (angles : Groups) : Conf :=
  ⟨(10, 10, 10), true, 8, [atom0 0, atom0 1, atom0 2], ⟨4, [⟨0, 0, [0, 1]⟩, ⟨1, 0, [1, 2]⟩]⟩, angles, ⟨0, []⟩⟩

theorem valid0 (angles : Groups) : ∀ a ∈ (chain0 angles).atoms, Valid true (chain0 angles).cap a := by
  intro a ha
  simp [chain0] at ha
  rcases ha with h | h | h <;> subst h <;> simp [Valid, atom0, chain0]

/-- The chain with its bonds only, `C90_bonds`. -/
example (junk : ℤ) : readConfig junk true 8 4 0 0 (writeConfig true (chain0 ⟨0, []⟩)) = ok (chain0 ⟨0, []⟩) :=
  C90_bonds junk true (chain0 ⟨0, []⟩) (fun _ => rfl) (by simp [chain0]) (by simp [chain0]) (valid0 _) (by simp [chain0])
    (by simp [chain0]) (by simp [chain0]) rfl rfl

/-- The chain written and read without the places of atoms in molecules, `C90_roundtrip`. -/
example (junk : ℤ) : readConfig junk false 8 4 0 0 (writeConfig false (chain0 ⟨0, []⟩))
    = ok { chain0 ⟨0, []⟩ with hasContexts := false, atoms := (chain0 ⟨0, []⟩).atoms.map (seen junk false) } :=
  C90_roundtrip junk false (chain0 _) (by simp) (by simp [chain0]) (by simp [chain0])
    (fun a ha => ⟨(valid0 _ a ha).1, (valid0 _ a ha).2.1, by simp⟩)
    (Or.inr (by simp [chain0])) (Or.inl (by simp [chain0])) (Or.inl (by simp [chain0]))

/-- Two angles and two bonds, `C90_same`. -/
example (junk : ℤ) : readConfig junk true 8 4 2 0 (writeConfig true (chain0 ⟨2, [⟨0, 0, [0, 1, 2]⟩, ⟨1, 0, [2, 1, 0]⟩]⟩))
    = ok (chain0 ⟨2, [⟨0, 0, [0, 1, 2]⟩, ⟨1, 0, [2, 1, 0]⟩]⟩) :=
  C90_same junk (chain0 _) rfl (by simp [chain0]) (by simp [chain0]) (valid0 _)
    (Or.inr (by simp [chain0])) (Or.inr (by simp [chain0])) (Or.inl (by simp [chain0]))

theorem angled0 (cap : ℕ) (hc : cap ≠ 0) (l : List Group) (h : ∀ x ∈ l, x.atomIds.length = 3) :
    Angled true (chain0 ⟨cap, l⟩) :=
  ⟨rfl, by simp [chain0], by simp [chain0], valid0 _, Or.inr (by simp [chain0]), hc, h, rfl⟩

/-- The chain with its one angle is read with two, `C90_invented_violated`. -/
example (junk : ℤ) : ∃ c', readConfig junk true 8 4 4 0 (writeConfig true (chain0 ⟨4, [⟨0, 0, [0, 1, 2]⟩]⟩)) = ok c' ∧
    c'.angles.list.length = 2 := by
  obtain ⟨c', h1, h2, _⟩ := C90_invented_violated junk true _ (angled0 4 (by norm_num) [⟨0, 0, [0, 1, 2]⟩] (by simp))
    (by simp [chain0]) (by simp [chain0])
  exact ⟨c', h1, h2⟩

/-- Three angles are read as two, `C90_lost_violated`. -/
example (junk : ℤ) : ∃ c', readConfig junk true 8 4 4 0 (writeConfig true
    (chain0 ⟨4, [⟨0, 0, [0, 1, 2]⟩, ⟨1, 0, [1, 2, 0]⟩, ⟨2, 0, [2, 0, 1]⟩]⟩)) = ok c' ∧
    c'.angles.list = [⟨0, 0, [0, 1, 2]⟩, ⟨1, 0, [1, 2, 0]⟩] :=
  C90_lost_violated junk true _ (angled0 4 (by norm_num) _ (by simp)) (by simp [chain0]) (by simp [chain0])
    (by simp [chain0])

/-- An angle without bonds is refused, `C90_nobonds_violated`. -/
example (junk : ℤ) : readConfig junk true 8 0 1 0 (writeConfig true
    { chain0 ⟨1, [⟨0, 0, [0, 1, 2]⟩]⟩ with bonds := ⟨0, []⟩ }) = Out.throw :=
  C90_nobonds_violated junk true { chain0 ⟨1, [⟨0, 0, [0, 1, 2]⟩]⟩ with bonds := ⟨0, []⟩ }
    ⟨rfl, by simp [chain0], by simp [chain0], valid0 ⟨1, [⟨0, 0, [0, 1, 2]⟩]⟩, Or.inl (by simp),
      by simp [chain0], by simp [chain0], rfl⟩ rfl

end Verif.PpConf
