/-
C87: concrete cases.
-/
import Verif.Traj.Props
import Mathlib.Tactic.NormNum

set_option autoImplicit false

namespace Verif.Traj

open Verif.Cpp
open Verif.Cpp.Out

/-- `C87_coordinate`: an atom a quarter of the box below its lower end. -/
example : ∃ k, encode (-1 / 4) = ok k ∧ k < 2 ^ 32 ∧ Near 4 (-1) (4 * decode k) := by
  have h : Fits (-1 / 4) := ⟨1, by norm_num, by norm_num, by norm_num⟩
  exact C87_coordinate 4 (-1) (by norm_num) h

/-- `C87_upper_violated`: an atom 2⁻⁴⁰ below the upper end. -/
example : encode (1 - 1 / 2 ^ 40) = ub := C87_upper_violated _ (by norm_num) (by norm_num)

/-- `C87_far_violated`. -/
example : encode 2 = ub := C87_far_violated 2 (le_refl _)

/-- Two atoms, of which the second is in group 1. -/
noncomputable def wSnap (step : ℤ) : Snap :=
  ⟨step, fun _ => 2, [⟨3, fun _ => 1, 0⟩, ⟨0, fun _ => -1 / 2, 2⟩]⟩

/-- A store with four atoms. -/
noncomputable def wStore : Store := ⟨4, fun id => decide (0 ≤ id ∧ id < 4), fun _ => 7, fun _ _ => 5⟩

theorem wGood (step : ℤ) : Good (wSnap step) wStore where
  box _ := by show (0 : ℝ) < 2; norm_num
  ids := by simp [wSnap]
  cap a ha := by
    have : a = ⟨3, fun _ => 1, 0⟩ ∨ a = ⟨0, fun _ => -1 / 2, 2⟩ := by simpa [wSnap] using ha
    rcases this with rfl | rfl <;> decide
  has a ha := by
    have : a = ⟨3, fun _ => 1, 0⟩ ∨ a = ⟨0, fun _ => -1 / 2, 2⟩ := by simpa [wSnap] using ha
    rcases this with rfl | rfl <;> simp [wStore]
  fits a ha j := by
    have : a = ⟨3, fun _ => 1, 0⟩ ∨ a = ⟨0, fun _ => -1 / 2, 2⟩ := by simpa [wSnap] using ha
    rcases this with rfl | rfl
    · exact ⟨0, by norm_num, by norm_num [wSnap], by norm_num [wSnap]⟩
    · exact ⟨1, by norm_num, by norm_num [wSnap], by norm_num [wSnap]⟩

/-- `C87_frame`. -/
example : ∃ f st', writeFrame (wSnap 10) = ok f ∧ readFrame 2 wStore f = ok (some (st', []))
    ∧ st'.box 0 = 2 ∧ Near 2 1 (st'.pos 3 0) ∧ st'.pos 1 0 = 5 := by
  obtain ⟨f, h1, h2⟩ := C87_frame (wSnap 10) wStore (wGood 10)
  obtain ⟨st', h3, h4⟩ := h2 []
  rw [List.append_nil] at h3
  refine ⟨f, st', h1, h3, by rw [h4.box]; rfl, ?_, ?_⟩
  · exact h4.atoms ⟨3, fun _ => 1, 0⟩ (by simp [wSnap]) 0
  · rw [h4.others 1 (by simp [wSnap])]
    rfl

/-- `C87_trajectory`: two frames. -/
example : ∃ f sts, writeFrames [wSnap 10, wSnap 20] = ok f ∧ readFrames 2 100 wStore f = ok (sts, [])
    ∧ sts.length = 2 := by
  obtain ⟨f, h1, _, h3⟩ := C87_trajectory 2 (wSnap 0) [wSnap 10, wSnap 20] wStore rfl (by
    intro s hs
    have : s = wSnap 10 ∨ s = wSnap 20 := by simpa using hs
    rcases this with rfl | rfl
    · exact ⟨wGood 10, rfl⟩
    · exact ⟨wGood 20, rfl⟩)
  obtain ⟨sts, h4, a, l, rfl, _, b, l', rfl, _, h5⟩ := h3 100 (by simp)
  refine ⟨f, _, h1, h4, ?_⟩
  have : l' = [] := h5
  simp [this]

/-- `C87_group`: of the two atoms one is written. -/
example : writeGroupHeader 1 (wSnap 0) = [Val.int 1] := by
  rw [(C87_group 1 (wSnap 0)).2]
  simp [writeHeader, inGroup, wSnap, Nat.testBit]

/-- Two atoms of ddMd. -/
noncomputable def wAtoms : List DdAtom := [⟨2, 0, fun _ => 3⟩, ⟨1, 1, fun _ => 1 / 2⟩]

/-- `C87_dump` and **C87 (box of a dump, violated)**: the atom at 3 in a box of length 4 is read into a box of
length 7. -/
example : ∃ s', readDump wStore (writeDump true 0 (fun _ => 4) wAtoms) = ok s' ∧ s'.box 0 = 7 ∧ s'.pos 2 0 = 3 := by
  obtain ⟨s', h, h1, h2, _⟩ := C87_dump true 0 (fun _ => 4) wAtoms wStore
    (by intro a ha
        have : a = ⟨2, 0, fun _ => 3⟩ ∨ a = ⟨1, 1, fun _ => 1 / 2⟩ := by simpa [wAtoms] using ha
        rcases this with rfl | rfl <;> decide)
    (by intro a ha
        have : a = ⟨2, 0, fun _ => 3⟩ ∨ a = ⟨1, 1, fun _ => 1 / 2⟩ := by simpa [wAtoms] using ha
        rcases this with rfl | rfl <;> simp [wStore])
    (by simp [wAtoms])
  refine ⟨s', h, ?_, ?_⟩
  · rw [C87_dump_box_violated _ _ _ h]
    rfl
  · exact congrFun (h2 ⟨2, 0, fun _ => 3⟩ (by simp [wAtoms])) 0

/-- `C87_dump_mc`: the same dump read by mcMd, where no atom has to be shifted, and for three atoms. -/
example : (∃ s', readDumpMc (fun _ r => r) 2 wStore (writeDump true 0 (fun _ => 4) wAtoms) = ok s' ∧ s'.box 0 = 4)
    ∧ readDumpMc (fun _ r => r) 3 wStore (writeDump true 0 (fun _ => 4) wAtoms) = Out.throw := by
  have hcap : ∀ a ∈ wAtoms, 0 ≤ a.id ∧ a.id < wStore.cap := by
    intro a ha
    have : a = ⟨2, 0, fun _ => 3⟩ ∨ a = ⟨1, 1, fun _ => 1 / 2⟩ := by simpa [wAtoms] using ha
    rcases this with rfl | rfl <;> decide
  constructor
  · obtain ⟨s', h, h1, _⟩ := (C87_dump_mc (fun _ r => r) true 0 (fun _ => 4) wAtoms wStore 2 hcap
      (by simp [wAtoms])).1 rfl
    exact ⟨s', h, by rw [h1]⟩
  · exact (C87_dump_mc (fun _ r => r) true 0 (fun _ => 4) wAtoms wStore 3 hcap (by simp [wAtoms])).2
      (by simp [wAtoms])

/-- **C87 (dump of ddMd, violated).**  With generalized coordinates in the storage, a dump has wrong positions. -/
theorem C87_dump_cartesian_violated :
    (writeDump false 0 (fun _ => 4) wAtoms).rows.map Row.pos ≠ wAtoms.map (cartesian false fun _ => 4) := by
  intro h
  rcases (C87_dump_cartesian false 0 (fun _ => 4) wAtoms).1 h with h | h
  · cases h
  · have := h ⟨2, 0, fun _ => 3⟩ (by simp [wAtoms]) 0
    norm_num at this

end Verif.Traj
