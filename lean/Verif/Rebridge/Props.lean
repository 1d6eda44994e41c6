/-
C74: rebridging of ring molecules.
-/
import Verif.Rebridge.Balance

set_option autoImplicit false
set_option linter.unusedSectionVars false

namespace Verif.Rebridge

open Verif.Boundary
open scoped ENNReal

variable {n : ℕ} [NeZero n]

/-- Indices that the move forms are brought back to the atom of the ring they stand for: `modId i m`
is the index in `[0, m)` congruent to `i`, for every `i > -m`. -/
theorem C74_index {i m : ℤ} (hm : 0 < m) (hi : -m < i) :
    0 ≤ modId i m ∧ modId i m < m ∧ m ∣ modId i m - i :=
  modId_spec hm hi

/-- At `i = -m`, one full turn back, it is not an index of the ring. -/
theorem C74_index_violated {m : ℤ} (hm : 0 < m) : modId (-m) m = m := by
  unfold modId
  simp only
  rw [if_neg (show ¬ (-m ≥ m) by omega), if_pos (show -m < 0 by omega)]
  simp

/-- The candidates that the scan finds are all different, there is room for them in the list that
is allocated, and each gives four different atoms `a`, `b`, `c`, `d`. -/
theorem C74_candidates (w : World) (r : ZMod n → Vec) (ia : ZMod n) :
    (w.scan r ia).Nodup ∧ (w.scan r ia).length ≤ n - 3 ∧
      ∀ ic ∈ w.scan r ia, ([ia, ia + 1, ic, ic + 1] : List (ZMod n)).Nodup := by
  refine ⟨nodup_scan w r ia, length_scan w r ia, fun ic h => ?_⟩
  obtain ⟨-, ⟨i, hi, hc⟩, -⟩ := mem_scan.1 h
  have off : ∀ s t : ℕ, s < n → t < n → s ≠ t → ia + ((s : ℕ) : ZMod n) ≠ ia + ((t : ℕ) : ZMod n) :=
    fun s t hs ht hst e => hst (off_inj ia hs ht e)
  have e0 : ia = ia + ((0 : ℕ) : ZMod n) := by simp
  have e1 : ia + 1 = ia + ((1 : ℕ) : ZMod n) := by simp
  have e2 : ic = ia + ((i + 2 : ℕ) : ZMod n) := by rw [hc]; push_cast; ring
  have e3 : ic + 1 = ia + ((i + 3 : ℕ) : ZMod n) := by rw [hc]; push_cast; ring
  rw [e3, e2, e1]
  nth_rewrite 1 [e0]
  simp only [List.nodup_cons, List.mem_cons, List.not_mem_nil, or_false, not_or, List.nodup_nil,
    not_false_eq_true, and_true]
  exact ⟨⟨off _ _ (by omega) (by omega) (by omega), off _ _ (by omega) (by omega) (by omega),
    off _ _ (by omega) (by omega) (by omega)⟩, ⟨off _ _ (by omega) (by omega) (by omega),
    off _ _ (by omega) (by omega) (by omega)⟩, off _ _ (by omega) (by omega) (by omega)⟩

/-- The move either leaves the ring as it is and returns false, or permutes the positions of its
atoms, so that its bonds are the former ones with `a - b` and `c - d` replaced by `a - c` and
`b - d`: every sum over bonds of a symmetric function of the positions changes accordingly. -/
theorem C74_bonds (w : World) (r : ZMod n → Vec) (ia : ZMod n) (k : ℕ) (v : ℝ) :
    w.move r ia k v = (r, false) ∨
    ∃ ic ∈ w.scan r ia, ∃ r' : ZMod n → Vec, w.move r ia k v = (r', true) ∧
      (∃ σ : Equiv.Perm (ZMod n), ∀ x, r' x = r (σ x)) ∧
      ∀ g : Vec → Vec → ℝ, (∀ p q, g p q = g q p) →
        ∑ x, g (r' x) (r' (x + 1)) = ∑ x, g (r x) (r (x + 1))
          - g (r ia) (r (ia + 1)) - g (r ic) (r (ic + 1))
          + g (r ia) (r ic) + g (r (ia + 1)) (r (ic + 1)) := by
  unfold World.move
  rcases h : (w.scan r ia)[k]? with _ | ic
  · exact Or.inl rfl
  simp only
  split
  swap
  · exact Or.inl rfl
  right
  have hmem : ic ∈ w.scan r ia := List.mem_of_getElem? h
  obtain ⟨-, ⟨i, hi, hc⟩, -⟩ := mem_scan.1 hmem
  obtain ⟨hb, hd⟩ := cand_off hi hc
  refine ⟨ic, hmem, reconnect r ia ic, rfl, ?_, ?_⟩
  · refine ⟨⟨mirror (arc ia ic).1 (arc ia ic).2, mirror (arc ia ic).1 (arc ia ic).2,
      mirror_mirror _ (arc_lt ia ic), mirror_mirror _ (arc_lt ia ic)⟩, fun x => ?_⟩
    rw [reconnect_eq]; rfl
  · intro g hg
    rw [reconnect_eq]
    unfold arc
    split
    · simp only
      rw [sum_bonds (fun x y => g (r x) (r y)) (fun x y => hg _ _) (ia + 1) (by omega),
        ZMod.natCast_zmod_val]
      simp only [add_sub_cancel_right, add_sub_cancel]
    · simp only
      rw [sum_bonds (fun x y => g (r x) (r y)) (fun x y => hg _ _) (ic + 1) (by omega),
        ZMod.natCast_zmod_val]
      simp only [add_sub_cancel_right, add_sub_cancel]
      rw [hg (r ic) (r ia), hg (r (ic + 1)) (r (ia + 1))]
      ring

/-- The energy on which acceptance is decided is the exact change of the energy of the system:
bonds, pairs that are not bonded, angles, and the energy of each atom in the field of everything
else. -/
theorem C74_energy (w : World) (ext : Vec → ℝ) {r : ZMod n → Vec} (h : w.Even r) {ia ic : ZMod n}
    (hm : ic ∈ w.scan r ia) :
    w.tetraEnergy r ia ic = w.ringEnergy ext (reconnect r ia ic) - w.ringEnergy ext r := by
  obtain ⟨-, ⟨i, hi, hc⟩, -⟩ := mem_scan.1 hm
  rw [energy_reconnect w ext h hi hc]; ring

/-- Each path can be followed backward: after the move the same candidate is found again, moving
through it restores the ring, and the probabilities of acceptance are in the ratio of the Boltzmann
factors. -/
theorem C74_reversible (w : World) (ext : Vec → ℝ) {r R : ZMod n → Vec} (h : w.Even r)
    (hf : w.Flat r R) {ia ic : ZMod n} (hm : ic ∈ w.scan r ia) :
    ic ∈ w.scan (reconnect r ia ic) ia ∧ reconnect (reconnect r ia ic) ia ic = r ∧
      w.weight ext r * w.accept r ia ic =
        w.weight ext (reconnect r ia ic) * w.accept (reconnect r ia ic) ia ic := by
  obtain ⟨-, ⟨i, hi, hc⟩, -⟩ := mem_scan.1 hm
  exact ⟨scan_symm hf h hm, reconnect_reconnect r ia ic, accept_balance w ext h hi hc⟩

/-- Detailed balance, under a condition that the code does not provide for: the number of candidates
has to be the same on both sides of each path between the two rings.
What is missing: the same for all rings, which fails (`C74_balance_violated`). -/
theorem C74_balance_partial (w : World) (ext : Vec → ℝ) {r r' R R' : ZMod n → Vec} (he : w.Even r)
    (hf : w.Flat r R) (he' : w.Even r') (hf' : w.Flat r' R')
    (hcount : ∀ ia, ∀ ic ∈ w.scan r ia, reconnect r ia ic = r' →
      (w.scan r' ia).length = (w.scan r ia).length) :
    w.weight ext r * w.passage r r' = w.weight ext r' * w.passage r' r :=
  balance w ext he hf he' hf' hcount

/-- Detailed balance holds for rings of four atoms, where there is at most one candidate. -/
theorem C74_four (w : World) (ext : Vec → ℝ) {r r' R R' : ZMod 4 → Vec} (he : w.Even r)
    (hf : w.Flat r R) (he' : w.Even r') (hf' : w.Flat r' R') :
    w.weight ext r * w.passage r r' = w.weight ext r' * w.passage r' r := by
  refine balance w ext he hf he' hf' fun ia ic hm e => ?_
  have h1 := length_scan w r ia
  have h2 := length_scan w r' ia
  have h3 : ic ∈ w.scan r' ia := e ▸ scan_symm hf he hm
  have h4 := List.length_pos_of_mem hm
  have h5 := List.length_pos_of_mem h3
  omega

end Verif.Rebridge
