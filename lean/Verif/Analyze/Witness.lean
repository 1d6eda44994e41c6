/-
Cases that meet the hypotheses of the theorems C75.
-/
import Verif.Analyze.Props

set_option autoImplicit false

namespace Verif.Analyze

open Verif.Boundary

/-- A cell of edge ten. -/
theorem exists_box : ∃ b : Ortho, b.Reach ∧ b.lengths = fun _ => 10 :=
  reach_ortho (fun _ => 10) (fun _ => by norm_num)

/-- A walk of three per sample, stored as it is. -/
example : ∃ (b : Ortho) (X pos : ℕ → Vec), b.Reach ∧ (∀ t, NearCell b.lengths (pos t)) ∧
    (∀ t, SameMod b.lengths (pos t) (X t)) ∧ (∀ t i, |X (t + 1) i - X t i| < b.lengths i / 2) ∧
    X 4 ≠ pos 4 ∧ X 1 ≠ X 0 := by
  obtain ⟨b, hb, hl⟩ := exists_box
  refine ⟨b, fun t _ => 3 * t, fun t _ => ((3 * t % 10 : ℕ) : ℝ), hb, fun t i => ?_, fun t => ?_,
    fun t i => ?_, fun h => ?_, fun h => ?_⟩
  · rw [hl]
    have : 3 * t % 10 < 10 := Nat.mod_lt _ (by norm_num)
    have h1 : ((3 * t % 10 : ℕ) : ℝ) < 10 := by exact_mod_cast this
    have h2 : (0 : ℝ) ≤ ((3 * t % 10 : ℕ) : ℝ) := Nat.cast_nonneg _
    constructor <;> dsimp only <;> linarith
  · refine ⟨fun _ => -((3 * t / 10 : ℕ) : ℤ), ?_⟩
    funext i
    rw [hl]
    simp only [Pi.add_apply, latVec]
    have : 10 * (3 * t / 10) + 3 * t % 10 = 3 * t := Nat.div_add_mod _ _
    have h : (10 : ℝ) * ((3 * t / 10 : ℕ) : ℝ) + ((3 * t % 10 : ℕ) : ℝ) = 3 * t := by exact_mod_cast this
    generalize 3 * t / 10 = q at h ⊢
    generalize 3 * t % 10 = m at h ⊢
    push_cast; linarith
  · rw [hl]
    have : (3 : ℝ) * ((t + 1 : ℕ) : ℝ) - 3 * t = 3 := by push_cast; ring
    show |(3 : ℝ) * ((t + 1 : ℕ) : ℝ) - 3 * t| < _
    rw [this]; norm_num
  · have := congrFun h 0; norm_num at this
  · have := congrFun h 0; norm_num at this

/-- A cell of edge ten with a tilt of five: an atom that moves one fifth along the second axis is
measured to have moved five along the third. -/
example : ∃ (b : Mono) (r : Vec), b.Reach ∧ b.d = 5 ∧
    (0 ≤ r 0 ∧ r 0 < b.l 0) ∧ (0 ≤ r 1 ∧ r 1 < b.l 1) ∧
    (0 ≤ r 2 + b.c3 * r 1 ∧ r 2 + b.c3 * r 1 < b.l 2) ∧ b.l 1 ≤ r 1 + 1 / 5 ∧ 1 / 5 < b.l 1 / 2 ∧
    (0 ≤ r 2 + b.c3 * (r 1 + 1 / 5) ∧ r 2 + b.c3 * (r 1 + 1 / 5) < b.l 2) ∧
    |b.c3 * (1 / 5)| ≤ b.l 2 / 2 := by
  obtain ⟨b, hb, hl, hd⟩ := reach_mono (fun _ => 10) 5 (fun _ => by norm_num)
  have hc : b.c3 = -1 / 2 := by rw [hb.ok.c3, hl, hd]; norm_num
  refine ⟨b, ![0, 99 / 10, 7], hb, hd, ?_⟩
  have e : (![0, 99 / 10, 7] : Vec) 2 = 7 := rfl
  rw [hc, hl, e]
  norm_num [abs_le]

/-- A bent chain of three atoms, whose last atom is stored on the other side of the cell. -/
theorem exists_chain : ∃ (b : Ortho) (mol X : ℕ → Vec), b.Reach ∧ b.lengths = (fun _ => 10) ∧
    Traces b mol X 3 ∧ mol 2 ≠ X 2 ∧ mol 0 = (fun _ => 5) ∧ X 0 = (fun _ => 5) := by
  obtain ⟨b, hb, hl⟩ := exists_box
  refine ⟨b, fun j => if j = 0 then fun _ => 5 else if j = 1 then fun _ => 8 else fun _ => 1,
    fun j => if j = 0 then fun _ => 5 else if j = 1 then fun _ => 8 else fun _ => 11, hb, hl,
    ⟨fun j hj => ?_, fun j hj i => ?_, fun j hj i => ?_⟩, fun h => ?_, by simp, by simp⟩
  · rw [hl]
    have : j = 0 ∨ j = 1 ∨ j = 2 := by omega
    rcases this with rfl | rfl | rfl
    · exact ⟨fun _ => 0, by funext i; simp [latVec]⟩
    · exact ⟨fun _ => 0, by funext i; simp [latVec]⟩
    · exact ⟨fun _ => -1, by funext i; simp [latVec]; norm_num⟩
  · rw [hl]
    have : j = 0 ∨ j = 1 := by omega
    rcases this with rfl | rfl <;> norm_num [abs_le]
  · rw [hl]
    have : j = 0 ∨ j = 1 := by omega
    rcases this with rfl | rfl <;> norm_num [abs_lt]
  · have := congrFun h 0; norm_num at this

/-- The chain moved by one along the first axis stays in the cell. -/
example : ∃ (b : Ortho) (mol x : ℕ → Vec) (v : Vec), b.Reach ∧ Traces b mol x 3 ∧
    InCell b.lengths (mol 0) ∧ InCell b.lengths (mol 0 + v) ∧ (∀ i, |v i| < b.lengths i / 2) ∧
    v ≠ ((3 - 1) / 3 : ℝ) • v := by
  obtain ⟨b, mol, X, hb, hl, hT, -, h0, -⟩ := exists_chain
  refine ⟨b, mol, X, fun _ => 1, hb, hT, ?_, ?_, ?_, fun h => ?_⟩
  · intro i; rw [h0, hl]; norm_num
  · intro i; rw [h0, hl]; norm_num
  · intro i; rw [hl]; norm_num
  · have := congrFun h 0; norm_num at this

/-- Two copies of one chain, one with its first atom one period away: the first odd mode tells them
apart. -/
example : ∃ (b : Ortho) (mol mol' X : ℕ → Vec), b.Reach ∧ Traces b mol X 2 ∧ Traces b mol' X 2 ∧
    mode (ofOrtho b) (linearProjector 1 2) mol' 2 ≠ mode (ofOrtho b) (linearProjector 1 2) mol 2 := by
  obtain ⟨b, hb, hl⟩ := exists_box
  have t1 : Traces b (fun j => if j = 0 then fun _ => 9 else fun _ => 11)
      (fun j => if j = 0 then fun _ => 9 else fun _ => 11) 2 := by
    refine ⟨fun j _ => ⟨fun _ => 0, by funext i; simp [latVec]⟩, fun j hj i => ?_, fun j hj i => ?_⟩
    · obtain rfl : j = 0 := by omega
      rw [hl]; norm_num [abs_le]
    · obtain rfl : j = 0 := by omega
      rw [hl]; norm_num
  have t2 : Traces b (fun j => if j = 0 then fun _ => -1 else fun _ => 11)
      (fun j => if j = 0 then fun _ => 9 else fun _ => 11) 2 := by
    refine ⟨fun j hj => ?_, fun j hj i => ?_, fun j hj i => ?_⟩
    · have : j = 0 ∨ j = 1 := by omega
      rcases this with rfl | rfl
      · exact ⟨fun _ => -1, by funext i; rw [hl]; simp [latVec]; norm_num⟩
      · exact ⟨fun _ => 0, by funext i; simp [latVec]⟩
    · obtain rfl : j = 0 := by omega
      rw [hl]; norm_num [abs_le]
    · obtain rfl : j = 0 := by omega
      rw [hl]; norm_num
  refine ⟨b, _, _, _, hb, t1, t2, fun h => ?_⟩
  have e := C75_linear_violated hb (le_refl 2) (p := 1) (by decide) t1 t2
  rw [h, sub_self] at e
  have := congrFun e 0
  norm_num at this

/-- Modes that meet the hypotheses on rings and chains. -/
example : (1 : ℕ) ≤ 6 ∧ (2 : ℕ) ≠ 0 ∧ ((2 : ℕ) % 2 = 0 → ¬ 6 ∣ 2 / 2) ∧ (3 : ℕ) % 2 = 1 ∧
    Even 2 ∧ ¬ 2 * (6 - 1) ∣ 2 := by decide

end Verif.Analyze
