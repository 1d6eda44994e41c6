/-
C85: concrete cases.
-/
import Verif.Bridge.Props
import Verif.Bridge.Index

set_option autoImplicit false

namespace Verif.Bridge

open Verif.Cpp
open Verif.Cpp.Out

/-- Atoms on a line: each energy depends on the positions, the bias is strongest at the origin, and its
normalization grows with the number of atoms before. -/
noncomputable def wWorld : World ℝ where
  beta := 1
  energy l x := x + l.sum
  prevBond l x := (x - l.headD 0) ^ 2
  nextBond x := (x - 1) ^ 2
  bias _ x := Real.exp (-x ^ 2)
  norm l := 2 * (1 + l.length)

/-- A segment of two atoms at 0 and 1, with two other trial positions of each. -/
def wOld : Path ℝ := ⟨[(0, [3, 4], 1)], (1, [5, 6], 2)⟩

/-- A segment of two atoms at 2 and 3, each with two other trial positions. -/
def wNew : Path ℝ := ⟨[(2, [7, 8], 0)], (3, [9, 10], 1)⟩

theorem wOld_valid : wOld.Valid := by
  refine ⟨?_, by decide⟩
  intro a ha
  have : a = (0, [3, 4], 1) := by simpa [wOld] using ha
  subst this
  decide

theorem wNew_valid : wNew.Valid := by
  refine ⟨?_, by decide⟩
  intro a ha
  have : a = (2, [7, 8], 0) := by simpa [wNew] using ha
  subst this
  decide

/-- `C85_rosenbluth` for the first segment. -/
example : wWorld.deleteSequence wOld.visit = (wWorld.addSequence wOld.ends wOld.last).1 :=
  C85_rosenbluth wWorld wOld wOld_valid

/-- `C85_balance` for the two segments, with normalizations that are half of the tabulated ones. -/
example : flow wWorld (fun _ => 1) (fun l => 1 + l.length) (fun _ _ _ => 1) (fun _ _ _ => 1) wOld wNew
    = flow wWorld (fun _ => 1) (fun l => 1 + l.length) (fun _ _ _ => 1) (fun _ _ _ => 1) wNew wOld :=
  C85_balance wWorld _ _ 2 _ _ wOld wNew wOld_valid wNew_valid rfl (fun _ _ => Real.exp_pos _)
    (fun l => by show (0 : ℝ) < 2 * (1 + l.length); positivity) (fun l => by positivity) (fun _ => rfl)

/-- `C85_norm_violated`: a normalization that is wrong where the first atom is at the origin. -/
example : ∃ (w : World ℝ) (Z : List ℝ → ℝ) (o n : Path ℝ),
    flow w (fun _ => 1) Z (fun _ _ _ => 1) (fun _ _ _ => 1) o n
      ≠ flow w (fun _ => 1) Z (fun _ _ _ => 1) (fun _ _ _ => 1) n o := by
  classical
  refine ⟨wWorld, fun l => if l = [0] then 1 else 2, wOld, wNew, ?_⟩
  refine C85_norm_violated wWorld _ (fun _ => one_pos) _ _ _ wOld wNew wOld_valid wNew_valid rfl
    (fun _ _ => Real.exp_pos _) (fun l => by show (0 : ℝ) < 2 * (1 + l.length); positivity) ?_ ?_ ?_ ?_
  · intro l
    show (0 : ℝ) < if l = [0] then 1 else 2
    split_ifs <;> norm_num
  · simp [trialPath, trialEnds, wOld]
  · simp [trialPath, trialEnds, wNew]
  · simp [latest, wOld, wNew, wWorld]

/-- The factor of a segment without trials of one atom is that of its own position. -/
example (x : ℝ) : wWorld.deleteSequence [(x, [])]
    = 2 / Real.exp (-x ^ 2) * Real.exp (-1 * (x + (x - 1) ^ 2)) := by
  simp [World.deleteSequence, World.deleteSequence.ends, World.deleteMiddle, World.boltz, wWorld]

/-- `C85_linear`: three of eight atoms, from the fourth, downwards. -/
example : chooseLinear 8 3 4 false = ok ⟨-1, 6, 4⟩ ∧ bondLinear ⟨-1, 6, 4⟩ 3 = 6 ∧ bondLinear ⟨-1, 6, 4⟩ 0 = 3 := by
  refine ⟨?_, by decide, by decide⟩
  unfold chooseLinear
  rw [check_true (by decide)]
  rfl

example := C85_linear 8 3 4 false (by decide) (by decide) (by decide) (by decide)

/-- `C85_ring`: four of six atoms, from the last one upwards: the segment passes the origin. -/
example : chooseRing 6 (4 : ℕ) 5 true = ok ⟨1, 5, 2⟩ ∧ bondRing 6 ⟨1, 5, 2⟩ 3 = 5 ∧ modId (5 + 2) 6 = 1 := by
  refine ⟨?_, by decide, by decide⟩
  unfold chooseRing
  rw [check_true (by decide)]
  rfl

example := C85_ring 6 4 5 true (by decide) (by decide) (by decide) (by decide)

/-- `C85_refused`: seven of eight atoms. -/
example : chooseLinear 8 7 1 true = throw := (C85_refused 8 7 1 true (by decide)).1

/-- `C85_restore`: positions of three atoms changed. -/
example (pos : ℤ → ℝ) : restore id ⟨-1, 6, 4⟩ 3 (store id ⟨-1, 6, 4⟩ pos)
    (fun a => if 4 ≤ a ∧ a ≤ 6 then 0 else pos a) = pos := by
  apply C85_restore
  intro a h
  have h0 := h 0 (by omega)
  have h1 := h 1 (by omega)
  have h2 := h 2 (by omega)
  simp only [id] at h0 h1 h2
  rw [if_neg]
  push_cast at h0 h1 h2
  omega

/-- `C85_angles`: a segment away from the ends. -/
example : deleteAngles 8 true ⟨1, 2, 4⟩ 3 = ok () :=
  C85_angles 8 3 ⟨1, 2, 4⟩ (Or.inl rfl) (by norm_num) (by decide) (by decide)

/-- `C85_angles_violated`: the same number of atoms next to the end. -/
example : ∃ g, chooseLinear 8 3 1 true = ok g ∧ deleteAngles 8 true g 3 = ub :=
  C85_angles_violated 8 3 (by decide) (by decide) true

/-- `C85_table`: a table from 0 to 100 has bins of length 1, and 41.5 is in bin 42. -/
example : binOf 0 100 41.5 = 42 := by
  obtain ⟨h1, h2, h3, h4⟩ := (C85_table 0 100 41.5 (by norm_num)).2 (by norm_num) (by norm_num)
  generalize binOf 0 100 41.5 = b at *
  unfold l20Table at h3 h4
  unfold maxBin at h2 h3 h4
  rw [if_neg (by omega), if_neg (by omega)] at h3 h4
  norm_num at h3 h4
  have a : (b : ℝ) < 43 := by linarith
  have c : (41 : ℝ) < b := by linarith
  have a' : b < 43 := by exact_mod_cast a
  have c' : 41 < b := by exact_mod_cast c
  omega

end Verif.Bridge
