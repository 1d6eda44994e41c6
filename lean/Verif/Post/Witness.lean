/-
Cases that meet the hypotheses of the theorems C76.
-/
import Verif.Post.Props
import Verif.Analyze.Lemmas

set_option autoImplicit false

namespace Verif.Post

open Verif.Boundary

/-- A pair of atoms one apart, in a cell of edge ten. -/
theorem near_pair {b : Ortho} (hb : b.Reach) (hl : b.lengths = fun _ => 10) (x : ℝ) (h0 : 0 ≤ x)
    (h1 : x < 9) : b.distanceSq (fun _ => x) (fun _ => x + 1) = 3 := by
  have hw : WithinPeriod b.lengths (fun _ => x) (fun _ => x + 1) := by
    rw [hl]
    exact withinPeriod_of_inCell (fun i => ⟨h0, by linarith⟩)
      (fun i => ⟨by linarith, by linarith⟩)
  have hs := (Analyze.sep_unique hb (D := fun _ => -1) (k := fun _ => 0) hw
    (fun i => by rw [hl]; norm_num) (by funext i; simp [latVec])).1
  rw [(C24_ortho_separation hb _ _).2, hs]
  norm_num [normSq]

/-- Two atoms within the cutoff, inside the cell: their energy is found. -/
example : ∃ (b : Ortho) (pos : Fin 2 → Vec) (g : CellGrid),
    setGrid (fun _ => 0) b.lengths 2 = some g ∧
      pairEnergy g b.distanceSq 2 (fun r _ _ => r + 1) pos = 4 := by
  obtain ⟨b, hb, hl⟩ := reach_ortho (fun _ => 10) (fun _ => by norm_num)
  have hd : b.distanceSq (fun _ => 2) (fun _ => 2 + 1) = 3 := near_pair hb hl 2 (by norm_num) (by norm_num)
  obtain ⟨g, hg, h⟩ := C76_energy_all hb (cutoff := 2) (by norm_num) (fun i => by rw [hl]; norm_num)
    (fun r _ _ => r + 1) (fun _ _ _ => rfl) ![fun _ => 2, fun _ => 2 + 1] (fun a i => by
      rw [hl]; fin_cases a <;> norm_num)
  refine ⟨b, _, g, hg, h.trans ?_⟩
  rw [trueEnergy_two _ _ (by
    show b.distanceSq (fun _ => 2) (fun _ => 2 + 1) ≤ _
    rw [hd]; norm_num)]
  show b.distanceSq (fun _ => 2) (fun _ => 2 + 1) + 1 = 4
  rw [hd]; norm_num

/-- The same pair, with one atom at the corner of the cell: the energy is zero instead of four. -/
example : ∃ (b : Ortho) (pos : Fin 2 → Vec) (g : CellGrid), (∀ a, InCell b.lengths (pos a)) ∧
    setGrid (fun _ => 0) b.lengths 2 = some g ∧
      pairEnergy g b.distanceSq 2 (fun r _ _ => r + 1) pos = 0 ∧
      trueEnergy b 2 (fun r _ _ => r + 1) pos = 4 := by
  obtain ⟨b, hb, hl⟩ := reach_ortho (fun _ => 10) (fun _ => by norm_num)
  have hd : b.distanceSq (fun _ => 0) (fun _ => 0 + 1) = 3 := near_pair hb hl 0 (by norm_num) (by norm_num)
  obtain ⟨g, hg, h, h'⟩ := C76_face_violated hb (cutoff := 2) (by norm_num)
    (fun i => by rw [hl]; norm_num) (fun r _ _ => r + 1) (fun _ _ _ => rfl)
    ![fun _ => 0, fun _ => 0 + 1] ⟨0, rfl⟩ (by
      show b.distanceSq (fun _ => 0) (fun _ => 0 + 1) ≤ _
      rw [hd]; norm_num)
  refine ⟨b, _, g, fun a i => ?_, hg, h, h'.trans ?_⟩
  · rw [hl]; fin_cases a <;> norm_num
  · show b.distanceSq (fun _ => 0) (fun _ => 0 + 1) + 1 = 4
    rw [hd]; norm_num

/-- A cell that has grown from six to ten: a pair beyond the old edges is missed. -/
example : ∃ (b : Ortho) (pos : Fin 2 → Vec) (g : CellGrid),
    (∀ a i, 0 < pos a i ∧ pos a i < b.lengths i) ∧ setGrid (fun _ => 0) (fun _ => 6) 2 = some g ∧
      pairEnergy g b.distanceSq 2 (fun r _ _ => r + 1) pos = 0 ∧
      trueEnergy b 2 (fun r _ _ => r + 1) pos = 4 := by
  obtain ⟨b, hb, hl⟩ := reach_ortho (fun _ => 10) (fun _ => by norm_num)
  have hd : b.distanceSq (fun _ => 7) (fun _ => 7 + 1) = 3 := near_pair hb hl 7 (by norm_num) (by norm_num)
  obtain ⟨g, hg, h⟩ := C76_resize_violated hb (L := fun _ => 6) (cutoff := 2) (by norm_num)
    (fun i => by norm_num) (fun r _ _ => r + 1) (fun _ _ _ => rfl)
    ![fun _ => 7, fun _ => 7 + 1] (fun a => ⟨0, by fin_cases a <;> norm_num⟩)
  refine ⟨b, _, g, fun a i => ?_, hg, h, ?_⟩
  · rw [hl]; fin_cases a <;> norm_num
  · rw [trueEnergy_two _ _ (by
      show b.distanceSq (fun _ => 7) (fun _ => 7 + 1) ≤ _
      rw [hd]; norm_num)]
    show b.distanceSq (fun _ => 7) (fun _ => 7 + 1) + 1 = 4
    rw [hd]; norm_num

/-- One atom in a narrow cell has an energy. -/
example : ∃ (b : Ortho) (g : CellGrid), b.Reach ∧
    setGrid (fun _ => 0) b.lengths 2 = some g ∧
      pairEnergy g b.distanceSq 2 (fun r _ _ => r + 1) (fun _ : Fin 1 => fun _ => 1) = 2 := by
  obtain ⟨b, hb, hl⟩ := reach_ortho ![3, 9, 9] (fun i => by fin_cases i <;> norm_num)
  have l2 : (![3, 9, 9] : Vec) 2 = 9 := rfl
  obtain ⟨g, hg, h⟩ := C76_narrow_violated (L := b.lengths) (cutoff := 2) (by norm_num)
    (by rw [hl]; norm_num) (by rw [hl]; norm_num) (by rw [hl]; norm_num) (by rw [hl, l2]; norm_num)
    b.distanceSq (fun r => by
      have hs := (Analyze.sep_unique hb (r1 := r) (r2 := r) (D := fun _ => 0) (k := fun _ => 0)
        (fun i => by have := hb.ok.pos i; rw [sub_self, abs_zero]; linarith)
        (fun i => by have := hb.ok.pos i; rw [abs_zero]; linarith) (by funext i; simp [latVec])).1
      rw [(C24_ortho_separation hb _ _).2, hs]
      norm_num [normSq]) (fun r _ _ => r + 1) (fun _ _ => 1)
    (fun i => by rw [hl]; fin_cases i <;> norm_num)
  exact ⟨b, g, hb, hg, h.trans (by norm_num)⟩

end Verif.Post
