/-
C86: concrete cases.
-/
import Verif.Double.Props
import Verif.Bridge.Witness
import Mathlib.Tactic.NormNum
import Mathlib.Algebra.BigOperators.Intervals

set_option autoImplicit false

namespace Verif.Double

open Verif.Cpp
open Verif.Cpp.Out
open Verif.Bridge (World Path)

/-- Two chains of three atoms on a line, of which the central atoms can be regrown. -/
noncomputable def wPars : Pars ℝ := ⟨2, 3, 1, 10, fun r s => (r - s) ^ 2⟩

/-- Positions: the second chain is shifted by one. -/
noncomputable def wPos : Pos ℝ := fun m a => a + m

theorem wCandidate : Candidate wPars 1 wPos 0 (1, 0) := by
  refine ⟨by decide, by decide, le_refl _, by decide, by decide, by decide, ?_, ?_⟩ <;>
    norm_num [wPars, wPos]

theorem wCandidate_down : Candidate wPars (-1) wPos 0 (1, 2) := by
  refine ⟨by decide, by decide, by decide, by decide, by decide, by decide, ?_, ?_⟩ <;>
    norm_num [wPars, wPos]

/-- `C86_scan`: the buffers hold one pair, and one is found. -/
example : ∃ l, wPars.scan 1 wPos 0 = ok l ∧ l.length = 1 := by
  obtain ⟨l, h, _, h2, h3⟩ := C86_scan wPars 1 wPos 0 (by decide) (Or.inl rfl) (by decide)
  refine ⟨l, h, le_antisymm h2 ?_⟩
  exact List.length_pos_of_mem ((h3 _).2 wCandidate)

/-- `C86_forward`: a draw that chooses the pair. -/
theorem wForward : ∃ choice f, wPars.forwardScan 1 wPos 0 choice = ok (some f) ∧ f.jMol = 1 ∧ f.beginId = 1 := by
  obtain ⟨n, _, _, _, h⟩ := C86_forward wPars 1 wPos 0 (by decide) (Or.inl rfl) (by decide)
  obtain ⟨k, ⟨_, hk⟩, _⟩ := h _ wCandidate
  exact ⟨k, _, hk, rfl, rfl⟩

/-- `C86_forward`: chains too far apart. -/
example (choice : ℕ) : wPars.forwardScan 1 (fun m a => a + 100 * m) 0 choice = ok none := by
  obtain ⟨n, h0, h1, _, _⟩ :=
    C86_forward wPars 1 (fun m a => a + 100 * m) 0 (by decide) (Or.inl rfl) (by decide)
  refine h1 (h0.2 ?_) choice
  rintro ⟨j, a⟩ ⟨c1, c2, c3, c4, c5, c6, c7, c8⟩
  simp only [wPars] at c1 c2 c3 c4 c5 c6 c7 c8
  have hj : j = 1 := by omega
  have ha : a = 0 := by omega
  subst hj ha
  norm_num at c7

/-- `C86_reverse`: the way back from the same positions has probability one. -/
example : ∃ q, wPars.reverseScan 1 wPos 0 1 0 = some q := by
  obtain ⟨k, f, h, h1, h2⟩ := wForward
  have := (C86_reverse wPars 1 wPos wPos 0 k f (by decide) (Or.inl rfl) (by decide) h f.prob).2 ⟨k, h⟩
  rw [h1, h2] at this
  exact ⟨_, this⟩

/-- **C86 (no way back).**  After a move for which the new positions are too far apart, there is no way back,
and it is rejected. -/
example : wPars.reverseScan 1 (fun m a => a + 100 * m) 0 1 0 = none := by
  unfold Pars.reverseScan
  rw [if_neg]
  rintro ⟨h, _⟩
  norm_num [wPars, Pars.reach] at h

/-- `C86_refused`: three of four atoms. -/
example : (Pars.mk 2 4 3 1 (fun r s : ℝ => (r - s) ^ 2)).forwardScan 1 wPos 0 0 = Out.throw :=
  C86_refused _ 1 wPos 0 0 (by decide)

/-- `C86_swap`: upwards the last atoms are exchanged, downwards the first. -/
example : wPars.swapEnds 1 0 1 1 wPos 0 2 = 3 ∧ wPars.swapEnds 1 0 1 1 wPos 1 2 = 2
    ∧ wPars.swapEnds 1 0 1 1 wPos 0 0 = 0 ∧ wPars.swapEnds (-1) 0 1 1 wPos 0 0 = 1 := by
  have e : wPars.swapEnds 1 0 1 1 wPos = _ := C86_swap wPars 1 wPos wPos 0 (1, 0) (Or.inl rfl) wCandidate
  have e' : wPars.swapEnds (-1) 0 1 1 wPos = _ :=
    C86_swap wPars (-1) wPos wPos 0 (1, 2) (Or.inr rfl) wCandidate_down
  rw [e, e']
  have t2 : Tail wPars 1 (0 + 1) 2 := by refine ⟨?_, ?_, ?_⟩ <;> decide
  have t0 : ¬ Tail wPars 1 (0 + 1) 0 := by rintro ⟨_, _, h⟩; revert h; decide
  have t0' : Tail wPars (-1) (2 + -1) 0 := by refine ⟨?_, ?_, ?_⟩ <;> decide
  simp only [exchange, if_pos t2, if_neg t0, if_pos t0', if_true]
  norm_num [wPos]

/-- `C86_restore`: central atoms placed at 7. -/
example : wPars.swapEnds 1 0 1 1 (wPars.restoreSegments 1 0 1 1 wPos
    (fun m a => if (m = 0 ∨ m = 1) ∧ a = 1 then 7 else wPars.swapEnds 1 0 1 1 wPos m a)) = wPos := by
  refine C86_restore wPars 1 wPos _ 0 (1, 0) (Or.inl rfl) wCandidate ?_
  intro m a h
  rw [if_neg]
  · rfl
  · rintro ⟨hm, rfl⟩
    exact h ⟨hm, 0, by decide, by decide⟩

/-- `C86_rest`: atoms of one type that repel each other, with springs of different constants. -/
example : energyOf (rest wPars 1 0 1 1) (fun _ _ => ()) (fun _ _ r s => 1 / (1 + (r - s) ^ 2)) (fun _ r => r)
      (fun a r s => a * (r - s) ^ 2) (wPars.swapEnds 1 0 1 1 wPos)
    = energyOf (rest wPars 1 0 1 1) (fun _ _ => ()) (fun _ _ r s => 1 / (1 + (r - s) ^ 2)) (fun _ r => r)
      (fun a r s => a * (r - s) ^ 2) wPos :=
  C86_rest wPars 1 wPos wPos 0 (1, 0) (Or.inl rfl) (by decide) (by decide) wCandidate _ (fun _ => rfl) _ _ _

/-- Energy of the fixed atoms of molecules of two types in a field that acts on the second. -/
noncomputable def wField (x : Pos ℝ) : ℝ :=
  energyOf (rest wPars 1 0 1 1) (fun m _ => (m : ℝ)) (fun _ _ _ _ => 0) (fun t r => t * r) (fun _ _ _ => 0) x

open Classical in
theorem wField_eq (x : Pos ℝ) : wField x = x 1 0 + x 1 2 := by
  have e : rest wPars 1 0 1 1 = {(0, 0), (0, 2), (1, 0), (1, 2)} := by
    ext ⟨m, a⟩
    unfold rest
    rw [Finset.mem_filter, Finset.mem_product, Finset.mem_range, Finset.mem_Ico]
    simp only [Finset.mem_insert, Finset.mem_singleton, Prod.mk.injEq, Seg]
    have hM : wPars.nMol = 2 := rfl
    have hA : wPars.nAtom = 3 := rfl
    have hR : wPars.nRegrow = 1 := rfl
    rw [hM, hA, hR]
    constructor
    · rintro ⟨⟨h1, h2, h3⟩, h4⟩
      have : a ≠ 1 := fun ha => h4 ⟨by omega, 0, by decide, by omega⟩
      push_cast at h3
      omega
    · intro h
      refine ⟨⟨by omega, by omega, by push_cast; omega⟩, ?_⟩
      rintro ⟨_, k, hk, h5⟩
      omega
  unfold wField energyOf
  rw [e]
  simp

/-- A state of which the segments have one atom each. -/
noncomputable def wSide (E : ℝ) (xi xj : ℝ) : Side ℝ where
  restEnergy := E
  wi := Verif.Bridge.wWorld
  wj := Verif.Bridge.wWorld
  pi := ⟨[], (xi, [3, 4], 1)⟩
  pj := ⟨[], (xj, [5], 0)⟩
  Zi l := 1 + l.length
  Zj l := 1 + l.length
  condI _ _ _ := 1
  midI _ _ _ := 1
  condJ _ _ _ := 1
  midJ _ _ _ := 1
  pick := some (1 / 2)

theorem wSide_good (E xi xj : ℝ) : (wSide E xi xj).Good 1 2 0 where
  vi := ⟨by simp [wSide], by simp [wSide]⟩
  vj := ⟨by simp [wSide], by simp [wSide]⟩
  li := rfl
  lj := rfl
  bi := rfl
  bj := rfl
  biasI _ _ := Real.exp_pos _
  biasJ _ _ := Real.exp_pos _
  normI l := by show (0 : ℝ) < 2 * (1 + l.length); positivity
  normJ l := by show (0 : ℝ) < 2 * (1 + l.length); positivity
  zi l := by show (0 : ℝ) < 1 + l.length; positivity
  zj l := by show (0 : ℝ) < 1 + l.length; positivity
  ki _ := rfl
  kj _ := rfl
  pick q h := by
    have : (1 / 2 : ℝ) = q := by simpa [wSide] using h
    rw [← this]; norm_num

/-- `C86_balance`: segments at 0 and 1, and at 2 and 3. -/
example : doubleFlow 1 (fun _ => 1) (wSide 5 0 1) (wSide 5 2 3) = doubleFlow 1 (fun _ => 1) (wSide 5 2 3) (wSide 5 0 1) :=
  C86_balance 1 2 0 _ _ _ (wSide_good 5 0 1) (wSide_good 5 2 3) rfl

/-- `C86_balance`: no way back. -/
example : doubleFlow 1 (fun _ => 1) (wSide 5 0 1) { wSide 5 2 3 with pick := none } = 0 := by
  simp [doubleFlow, accept]

/-- **C86 (mutable species, violated).**  `CfbDoubleRebridgeMove` accepts a species whose molecules differ in the
types of their atoms: the exchange of ends changes the energy of the atoms that are not regrown, and the
move does not balance. -/
theorem C86_mutable_violated :
    ∃ (p : Pars ℝ) (x : Pos ℝ) (c : ℕ × ℤ) (typ : ℕ → ℤ → ℝ) (v : ℝ → ℝ → ℝ),
      Candidate p 1 x 0 c ∧ ∀ xi xj yi yj : ℝ,
        let E := energyOf (rest p 1 0 c.1 (c.2 + 1)) typ (fun _ _ _ _ => 0) v (fun _ _ _ => 0)
        let o := wSide (E x) xi xj
        let n := wSide (E (p.swapEnds 1 0 c.1 (c.2 + 1) x)) yi yj
        doubleFlow 1 (fun _ => 1) o n ≠ doubleFlow 1 (fun _ => 1) n o := by
  refine ⟨wPars, wPos, (1, 0), fun m _ => m, fun t r => t * r, wCandidate, ?_⟩
  intro xi xj yi yj
  refine C86_rest_violated 1 2 0 _ _ _ (wSide_good _ _ _) (wSide_good _ _ _) one_ne_zero ?_ ?_
  · show wField wPos ≠ wField (wPars.swapEnds 1 0 1 1 wPos)
    have e : wPars.swapEnds 1 0 1 1 wPos = _ := C86_swap wPars 1 wPos wPos 0 (1, 0) (Or.inl rfl) wCandidate
    rw [wField_eq, wField_eq, e]
    have t2 : Tail wPars 1 (0 + 1) 2 := by refine ⟨?_, ?_, ?_⟩ <;> decide
    have t0 : ¬ Tail wPars 1 (0 + 1) 0 := by rintro ⟨_, _, h⟩; revert h; decide
    simp only [exchange, if_pos t2, if_neg t0]
    norm_num [wPos]
  · refine (doubleFlow_pos 1 2 0 _ _ _ (wSide_good _ _ _) (wSide_good _ _ _) (fun _ => one_pos) two_pos
      (1 / 2) (1 / 2) rfl rfl ?_ ?_).ne' <;>
    simp [Side.trials, wSide, Verif.Bridge.trialPath, Verif.Bridge.trialEnds]

end Verif.Double
