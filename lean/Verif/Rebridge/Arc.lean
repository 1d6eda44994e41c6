/-
Reversal of an arc of a ring: what the loop over exchanges does to the positions.
-/
import Verif.Rebridge.Model
import Mathlib.Tactic.Ring
import Mathlib.Tactic.Linarith

set_option autoImplicit false
set_option linter.unusedSectionVars false

namespace Verif.Rebridge

open Verif.Boundary

variable {n : ℕ} [NeZero n]

/-- `modId` gives the representative in `[0, n)`. -/
theorem modId_spec {i m : ℤ} (hm : 0 < m) (hi : -m < i) :
    0 ≤ modId i m ∧ modId i m < m ∧ m ∣ modId i m - i := by
  unfold modId
  simp only
  by_cases h : i ≥ m
  · have h0 : 0 ≤ i := by omega
    rw [if_pos h, Int.tmod_eq_emod_of_nonneg h0, if_neg (by have := Int.emod_nonneg i hm.ne'; omega)]
    refine ⟨Int.emod_nonneg _ hm.ne', Int.emod_lt_of_pos _ hm, ?_⟩
    exact ⟨-(i / m), by have := Int.emod_add_mul_ediv i m; linarith⟩
  · rw [if_neg h]
    by_cases h0 : i < 0
    · rw [if_pos h0, Int.tmod_eq_of_lt (by omega) (by omega)]
      exact ⟨by omega, by omega, ⟨1, by ring⟩⟩
    · rw [if_neg h0]
      exact ⟨by omega, by omega, ⟨0, by ring⟩⟩

/-- Every index is `lo` plus an offset below `n`. -/
theorem offset (lo x : ZMod n) : ∃ t : ℕ, t < n ∧ x = lo + (t : ℕ) ∧ (x - lo).val = t :=
  ⟨(x - lo).val, ZMod.val_lt _, by rw [ZMod.natCast_zmod_val]; ring, rfl⟩

theorem val_off (lo : ZMod n) {t : ℕ} (ht : t < n) : (lo + (t : ℕ) - lo).val = t := by
  rw [add_sub_cancel_left, ZMod.val_natCast_of_lt ht]

theorem val_back (lo : ZMod n) {t L : ℕ} (hL : L < n) (htL : t ≤ L) :
    (lo + (L : ℕ) - (lo + (t : ℕ))).val = L - t := by
  have : lo + (L : ℕ) - (lo + (t : ℕ)) = ((L - t : ℕ) : ZMod n) := by
    rw [Nat.cast_sub htL]; ring
  rw [this, ZMod.val_natCast_of_lt (by omega)]

theorem val_wrap (lo : ZMod n) {t L : ℕ} (ht : t < n) (htL : L < t) :
    (lo + (L : ℕ) - (lo + (t : ℕ))).val = n + L - t := by
  have : lo + (L : ℕ) - (lo + (t : ℕ)) = ((n + L - t : ℕ) : ZMod n) := by
    rw [Nat.cast_sub (by omega), Nat.cast_add, ZMod.natCast_self]; ring
  rw [this, ZMod.val_natCast_of_lt (by omega)]

theorem off_inj (lo : ZMod n) {s t : ℕ} (hs : s < n) (ht : t < n)
    (h : lo + (s : ℕ) = lo + ((t : ℕ) : ZMod n)) : s = t := by
  have := val_off lo hs
  rw [h, val_off lo ht] at this
  exact this.symm

/-- The index that takes the place of `x` when the arc of `L + 1` atoms from `lo` is reversed. -/
def mirror (lo : ZMod n) (L : ℕ) (x : ZMod n) : ZMod n :=
  if (x - lo).val ≤ L then lo + (lo + (L : ℕ)) - x else x

theorem mirror_in (lo : ZMod n) {L t : ℕ} (hL : L < n) (ht : t ≤ L) :
    mirror lo L (lo + (t : ℕ)) = lo + ((L - t : ℕ) : ZMod n) := by
  unfold mirror
  rw [val_off lo (by omega), if_pos ht, Nat.cast_sub ht]; ring

theorem mirror_out (lo : ZMod n) {L t : ℕ} (ht : t < n) (hLt : L < t) :
    mirror lo L (lo + (t : ℕ)) = lo + (t : ℕ) := by
  unfold mirror
  rw [val_off lo ht, if_neg (by omega)]

theorem mirror_mirror (lo : ZMod n) {L : ℕ} (hL : L < n) (x : ZMod n) :
    mirror lo L (mirror lo L x) = x := by
  obtain ⟨t, ht, rfl, -⟩ := offset lo x
  by_cases h : t ≤ L
  · rw [mirror_in lo hL h, mirror_in lo hL (by omega)]
    congr 2; omega
  · rw [mirror_out lo ht (by omega), mirror_out lo ht (by omega)]

/-- After `m` exchanges. -/
theorem swapLoop_eq (r : ZMod n → Vec) (lo : ZMod n) {L : ℕ} (hL : L < n) :
    ∀ m : ℕ, 2 * m ≤ L + 1 → ∀ t : ℕ, t < n →
      swapLoop r lo (lo + (L : ℕ)) m (lo + (t : ℕ)) =
        if t < m ∨ (t ≤ L ∧ L < t + m) then r (lo + ((L - t : ℕ) : ZMod n)) else r (lo + (t : ℕ))
  | 0, _, t, _ => by
    rw [swapLoop, if_neg (by omega)]
  | m + 1, hm, t, ht => by
    have ih := swapLoop_eq r lo hL m (by omega)
    have hhi : lo + ((L : ℕ) : ZMod n) - ((m : ℕ) : ZMod n) = lo + ((L - m : ℕ) : ZMod n) := by
      rw [Nat.cast_sub (by omega)]; ring
    rw [swapLoop, swapPair, hhi, ih m (by omega), ih (L - m) (by omega),
      if_neg (by omega), if_neg (by omega)]
    by_cases h1 : t = L - m
    · subst h1
      rw [Function.update_self, if_pos (by omega)]
      congr 3; omega
    · rw [Function.update_of_ne (fun h => h1 (off_inj lo ht (by omega) h))]
      by_cases h2 : t = m
      · subst h2
        rw [Function.update_self, if_pos (by omega)]
      · rw [Function.update_of_ne (fun h => h2 (off_inj lo ht (by omega) h)), ih t ht]
        by_cases h3 : t < m ∨ (t ≤ L ∧ L < t + m)
        · rw [if_pos h3, if_pos (by omega)]
        · rw [if_neg h3, if_neg (by omega)]

/-- The loop reverses the arc. -/
theorem swapLoop_mirror (r : ZMod n → Vec) (lo : ZMod n) {L : ℕ} (hL : L < n) :
    swapLoop r lo (lo + (L : ℕ)) (nSwap L) = fun x => r (mirror lo L x) := by
  funext x
  obtain ⟨t, ht, rfl, -⟩ := offset lo x
  have hs : 2 * nSwap L = L ∧ L % 2 = 0 ∨ 2 * nSwap L = L + 1 ∧ L % 2 = 1 := by
    unfold nSwap
    split <;> omega
  rw [swapLoop_eq r lo hL _ (by omega) t ht]
  by_cases h : t ≤ L
  · rw [mirror_in lo hL h]
    by_cases h2 : t < nSwap L ∨ (t ≤ L ∧ L < t + nSwap L)
    · rw [if_pos h2]
    · rw [if_neg h2]
      congr 3; omega
  · rw [mirror_out lo ht (by omega), if_neg (by omega)]

/-- The arc that `reconnect` reverses: its first atom and its length. -/
def arc (ia ic : ZMod n) : ZMod n × ℕ :=
  if (ic - (ia + 1)).val ≤ (ia - (ic + 1)).val then (ia + 1, (ic - (ia + 1)).val)
  else (ic + 1, (ia - (ic + 1)).val)

theorem reconnect_eq (r : ZMod n → Vec) (ia ic : ZMod n) :
    reconnect r ia ic = fun x => r (mirror (arc ia ic).1 (arc ia ic).2 x) := by
  unfold reconnect arc
  simp only
  split
  · have := swapLoop_mirror r (ia + 1) (ZMod.val_lt (ic - (ia + 1)))
    rw [ZMod.natCast_zmod_val, add_sub_cancel] at this
    exact this
  · have := swapLoop_mirror r (ic + 1) (ZMod.val_lt (ia - (ic + 1)))
    rw [ZMod.natCast_zmod_val, add_sub_cancel] at this
    exact this

theorem arc_lt (ia ic : ZMod n) : (arc ia ic).2 < n := by
  unfold arc; split <;> exact ZMod.val_lt _

/-- Reconnecting the same two places twice restores the ring. -/
theorem reconnect_reconnect (r : ZMod n → Vec) (ia ic : ZMod n) :
    reconnect (reconnect r ia ic) ia ic = r := by
  rw [reconnect_eq, reconnect_eq]
  funext x
  simp only
  rw [mirror_mirror _ (arc_lt ia ic)]

/-- A candidate of the scan: the offsets of its atoms. -/
theorem cand_off {ia ic : ZMod n} {i : ℕ} (hi : i < n - 3)
    (h : ic = ia + 1 + ((i + 1 : ℕ) : ZMod n)) :
    (ic - (ia + 1)).val = i + 1 ∧ (ia - (ic + 1)).val = n - 3 - i := by
  subst h
  constructor
  · exact val_off (ia + 1) (by omega)
  · have : ia - (ia + 1 + ((i + 1 : ℕ) : ZMod n) + 1) = ((n - 3 - i : ℕ) : ZMod n) := by
      rw [show n - 3 - i = n - (3 + i) by omega, Nat.cast_sub (by omega), ZMod.natCast_self]
      push_cast; ring
    rw [this, ZMod.val_natCast_of_lt (by omega)]

end Verif.Rebridge
