/-
Concrete cases that meet the hypotheses of the theorems on DCD trajectories.
-/
import Verif.Dcd.Props
import Mathlib.Tactic.NormNum

set_option autoImplicit false

namespace Verif.Dcd

open Verif.Cpp
open Verif.Cpp.Out

/-- One species of two molecules of one atom, and one of one molecule of two atoms. -/
def sp0 : List (ℕ × ℕ) := [(2, 1), (1, 2)]

/-- A frame of four atoms, the last outside the cell. -/
def frame0 : Frame := ⟨fun _ => 10, fun _ => 90, fun _ => [1, 2, 3, -4]⟩

/-- A reader before any file. -/
def reader0 : Reader := ⟨0, 0, 0, fun _ => 5, fun _ => 5, fun _ => 5, fun _ => 1, fun _ _ => 0, ⟨[], true⟩⟩

theorem total0 : nAtomTotal sp0 = 4 := rfl

/-- Two frames are read, and the last atom is brought into the cell, `C89_trajectory`. -/
example (j : ℕ → Junk) : ∃ r1 r2 r3, openFile sp0 reader0 ⟨2, 4, frameVals 4 frame0 ++ (frameVals 4 frame0 ++ [])⟩ = ok r1 ∧
    readFrame sp0 (j 0) r1 = ok (true, r2) ∧ readFrame sp0 (j 1) r2 = ok (true, r3) ∧
    readFrame sp0 (j 2) r3 = ok (false, r3) ∧ r3.pos (1, 0, 1) 0 = 6 ∧ r3.pos (0, 1, 0) 2 = 2 := by
  obtain ⟨rs, h1, h2, h3⟩ := C89_trajectory sp0 j reader0 [frame0, frame0] []
    (by intro f hf d; simp at hf; subst hf; rfl)
  have h4 := h2 0 (by simp)
  have h5 := h2 1 (by simp)
  refine ⟨rs 0, rs 1, rs 2, ?_, h4.1, h5.1, h3 _, ?_, ?_⟩
  · rw [← h1]; simp [total0]
  · have := h5.2.2 1 (by simp [sp0]) 0 (by simp [sp0]) 1 (by simp [sp0]) 0
    rw [this]
    simp [frame0, offset, sp0, shift]
    norm_num
  · have := h5.2.2 0 (by simp [sp0]) 1 (by simp [sp0]) 0 (by simp [sp0]) 2
    rw [this]
    simp [frame0, offset, sp0, shift]
    norm_num

/-- A file for three atoms is refused, `C89_open`. -/
example : openFile sp0 reader0 ⟨1, 3, []⟩ = Out.throw := (C89_open sp0 reader0 _).2 (by simp [sp0])

/-- A file that names a frame and has none, `C89_missing`. -/
example (j : Junk) : readFrame sp0 j { reader0 with nFrames := 1, nAtoms := 4 } = Out.throw :=
  C89_missing sp0 j _ frame0 0 (by norm_num) (by simp [reader0]) (by simp [reader0])

/-- A frame with the size of three atoms, `C89_size`. -/
example (j : Junk) : readFrame sp0 j { reader0 with nFrames := 1, nAtoms := 4, file := ⟨cellVals frame0 ++
    (Val.int (4 * ((3 : ℕ) : ℤ)) :: ([1, 2, 3, 4].map Val.flt ++ Val.int 12 :: [])), true⟩ } = Out.throw :=
  C89_size sp0 j _ frame0 3 [1, 2, 3, 4] rfl [] (by simp) 12 (by simp [reader0]) rfl

/-- A frame that ends after one of four third coordinates: the last atom has the third coordinate that was
in the buffer, `C89_truncated_violated`. -/
example (j : Junk) : ∃ r', readFrame sp0 j { reader0 with nFrames := 1, nAtoms := 4, file := ⟨cellVals frame0 ++
    (blockVals 4 (frame0.coord 0) ++ (blockVals 4 (frame0.coord 1) ++
      (Val.int (4 * ((4 : ℕ) : ℤ)) :: [1].map Val.flt))), true⟩ } = ok (true, r') ∧ r'.pos (1, 0, 1) 2 = 5 := by
  obtain ⟨r', h1, _, _, h2⟩ := C89_truncated_violated sp0 j { reader0 with nFrames := 1, nAtoms := 4, file :=
    ⟨cellVals frame0 ++ (blockVals 4 (frame0.coord 0) ++ (blockVals 4 (frame0.coord 1) ++
      (Val.int (4 * ((4 : ℕ) : ℤ)) :: [1].map Val.flt))), true⟩ } frame0 [1] rfl rfl rfl (by simp)
      (by simp [reader0]) rfl
  refine ⟨r', h1, ?_⟩
  rw [h2 1 (by simp [sp0]) 0 (by simp [sp0]) 1 (by simp [sp0]) (by simp [sp0, offset])]
  simp [frame0, reader0, shift]
  norm_num

end Verif.Dcd
