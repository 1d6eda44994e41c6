/-
Change of the energy of a ring when an arc is reversed.
-/
import Verif.Rebridge.Arc
import Mathlib.Algebra.BigOperators.Fin
import Mathlib.Algebra.BigOperators.Ring.Finset
import Mathlib.Algebra.BigOperators.Field
import Mathlib.Algebra.BigOperators.Intervals

set_option autoImplicit false
set_option linter.unusedSectionVars false

namespace Verif.Rebridge

open Verif.Boundary

variable {n : ℕ} [NeZero n]

theorem sum_off (lo : ZMod n) {m : ℕ} (hm : n = m) (h : ZMod n → ℝ) :
    ∑ x, h x = ∑ t ∈ Finset.range m, h (lo + ((t : ℕ) : ZMod n)) := by
  refine Finset.sum_nbij' (fun x => (x - lo).val) (fun t => lo + ((t : ℕ) : ZMod n)) ?_ ?_ ?_ ?_ ?_
  · intro x _; rw [Finset.mem_range, ← hm]; exact ZMod.val_lt _
  · intro t _; exact Finset.mem_univ _
  · intro x _; rw [ZMod.natCast_zmod_val]; ring
  · intro t ht; exact val_off lo (by rw [Finset.mem_range] at ht; omega)
  · intro x _; rw [ZMod.natCast_zmod_val, add_sub_cancel]

theorem off_succ (lo : ZMod n) (t : ℕ) : lo + ((t : ℕ) : ZMod n) + 1 = lo + ((t + 1 : ℕ) : ZMod n) := by
  push_cast; ring

theorem off_n (lo : ZMod n) {t : ℕ} (h : t = n) (s : ℕ) :
    lo + ((t + s : ℕ) : ZMod n) = lo + ((s : ℕ) : ZMod n) := by
  rw [h]; push_cast; rw [ZMod.natCast_self]; ring

theorem off_pred (lo : ZMod n) {t : ℕ} (h : t + 1 = n) :
    lo + ((t : ℕ) : ZMod n) = lo - 1 := by
  have : ((t : ℕ) : ZMod n) = -1 := by
    have := ZMod.natCast_self n
    rw [← h] at this
    push_cast at this
    rw [h] at this
    exact eq_neg_of_add_eq_zero_left this
  rw [this]; ring

theorem split_one (f : ℕ → ℝ) (L M : ℕ) : ∑ t ∈ Finset.range (L + 1 + M + 1), f t =
    ∑ t ∈ Finset.range L, f t + f L + ∑ s ∈ Finset.range M, f (L + 1 + s) + f (L + 1 + M) := by
  rw [Finset.sum_range_succ, Finset.sum_range_add, Finset.sum_range_succ]

theorem split_two (f : ℕ → ℝ) (K M : ℕ) : ∑ t ∈ Finset.range (K + 2 + M + 2), f t =
    ∑ t ∈ Finset.range K, f t + f K + f (K + 1) + ∑ s ∈ Finset.range M, f (K + 2 + s)
      + f (K + 2 + M) + f (K + 2 + M + 1) := by
  rw [Finset.sum_range_succ, Finset.sum_range_succ, Finset.sum_range_add, Finset.sum_range_succ,
    Finset.sum_range_succ]

theorem sum_shift (h : ZMod n → ℝ) : ∑ x, h (x + 1) = ∑ x, h x :=
  Equiv.sum_comp (Equiv.addRight (1 : ZMod n)) h

/-- Sum over neighbours after the reversal of an arc. -/
theorem sum_bonds (g : ZMod n → ZMod n → ℝ) (hg : ∀ x y, g x y = g y x) (lo : ZMod n) {L : ℕ}
    (hL : L + 2 ≤ n) :
    ∑ x, g (mirror lo L x) (mirror lo L (x + 1)) =
      ∑ x, g x (x + 1) - g (lo - 1) lo - g (lo + (L : ℕ)) (lo + (L : ℕ) + 1)
        + g (lo - 1) (lo + (L : ℕ)) + g lo (lo + (L : ℕ) + 1) := by
  obtain ⟨M, hM⟩ : ∃ M, n = L + 1 + M + 1 := ⟨n - L - 2, by omega⟩
  rw [sum_off lo hM, sum_off lo hM, split_one, split_one]
  have e1 : ∑ t ∈ Finset.range L, g (mirror lo L (lo + ((t : ℕ) : ZMod n)))
      (mirror lo L (lo + ((t : ℕ) : ZMod n) + 1)) =
      ∑ t ∈ Finset.range L, g (lo + ((t : ℕ) : ZMod n)) (lo + ((t : ℕ) : ZMod n) + 1) := by
    rw [← Finset.sum_range_reflect]
    refine Finset.sum_congr rfl fun t ht => ?_
    rw [Finset.mem_range] at ht
    rw [off_succ, off_succ, mirror_in lo (by omega) (by omega), mirror_in lo (by omega) (by omega), hg]
    congr 3 <;> omega
  have e2 : ∑ s ∈ Finset.range M, g (mirror lo L (lo + ((L + 1 + s : ℕ) : ZMod n)))
      (mirror lo L (lo + ((L + 1 + s : ℕ) : ZMod n) + 1)) =
      ∑ s ∈ Finset.range M, g (lo + ((L + 1 + s : ℕ) : ZMod n))
        (lo + ((L + 1 + s : ℕ) : ZMod n) + 1) := by
    refine Finset.sum_congr rfl fun s hs => ?_
    rw [Finset.mem_range] at hs
    rw [off_succ, mirror_out lo (by omega) (by omega), mirror_out lo (by omega) (by omega)]
  have e3 : g (mirror lo L (lo + ((L : ℕ) : ZMod n))) (mirror lo L (lo + ((L : ℕ) : ZMod n) + 1)) =
      g lo (lo + (L : ℕ) + 1) := by
    rw [off_succ, mirror_in lo (by omega) (le_refl _), mirror_out lo (by omega) (by omega),
      Nat.sub_self, Nat.cast_zero, add_zero]
  have e4 : lo + ((L + 1 + M : ℕ) : ZMod n) = lo - 1 := off_pred lo (by omega)
  have e5 : mirror lo L (lo - 1) = lo - 1 := by
    rw [← e4]; exact mirror_out lo (by omega) (by omega)
  have e6 : mirror lo L lo = lo + (L : ℕ) := by
    have := mirror_in lo (n := n) (L := L) (t := 0) (by omega) (by omega)
    rwa [Nat.cast_zero, add_zero, Nat.sub_zero] at this
  rw [e1, e2, e3, e4, e5, sub_add_cancel, e6]
  ring

/-- Sum over triples after the reversal of an arc. -/
theorem sum_triples (g : ZMod n → ZMod n → ZMod n → ℝ) (hg : ∀ x y z, g x y z = g z y x)
    (lo : ZMod n) {L : ℕ} (h1 : 1 ≤ L) (hL : L + 3 ≤ n) :
    ∑ x, g (mirror lo L (x - 1)) (mirror lo L x) (mirror lo L (x + 1)) =
      ∑ x, g (x - 1) x (x + 1)
        - g (lo - 1 - 1) (lo - 1) lo - g (lo - 1) lo (lo + 1)
        - g (lo + (L : ℕ) - 1) (lo + (L : ℕ)) (lo + (L : ℕ) + 1)
        - g (lo + (L : ℕ)) (lo + (L : ℕ) + 1) (lo + (L : ℕ) + 1 + 1)
        + g (lo - 1 - 1) (lo - 1) (lo + (L : ℕ)) + g (lo - 1) (lo + (L : ℕ)) (lo + (L : ℕ) - 1)
        + g (lo + 1) lo (lo + (L : ℕ) + 1) + g lo (lo + (L : ℕ) + 1) (lo + (L : ℕ) + 1 + 1) := by
  obtain ⟨K, rfl⟩ : ∃ K, L = K + 1 := ⟨L - 1, by omega⟩
  obtain ⟨M, hM⟩ : ∃ M, n = K + 2 + M + 2 := ⟨n - K - 4, by omega⟩
  rw [← sum_shift, ← sum_shift (fun x => g (x - 1) x (x + 1))]
  simp only [add_sub_cancel_right]
  rw [sum_off lo hM, sum_off lo hM, split_two, split_two]
  have e1 : ∑ t ∈ Finset.range K, g (mirror lo (K + 1) (lo + ((t : ℕ) : ZMod n)))
      (mirror lo (K + 1) (lo + ((t : ℕ) : ZMod n) + 1))
      (mirror lo (K + 1) (lo + ((t : ℕ) : ZMod n) + 1 + 1)) =
      ∑ t ∈ Finset.range K, g (lo + ((t : ℕ) : ZMod n)) (lo + ((t : ℕ) : ZMod n) + 1)
        (lo + ((t : ℕ) : ZMod n) + 1 + 1) := by
    rw [← Finset.sum_range_reflect]
    refine Finset.sum_congr rfl fun t ht => ?_
    rw [Finset.mem_range] at ht
    simp only [off_succ]
    rw [mirror_in lo (by omega) (by omega), mirror_in lo (by omega) (by omega),
      mirror_in lo (by omega) (by omega), hg]
    congr 3 <;> omega
  have e2 : ∑ s ∈ Finset.range M, g (mirror lo (K + 1) (lo + ((K + 2 + s : ℕ) : ZMod n)))
      (mirror lo (K + 1) (lo + ((K + 2 + s : ℕ) : ZMod n) + 1))
      (mirror lo (K + 1) (lo + ((K + 2 + s : ℕ) : ZMod n) + 1 + 1)) =
      ∑ s ∈ Finset.range M, g (lo + ((K + 2 + s : ℕ) : ZMod n))
        (lo + ((K + 2 + s : ℕ) : ZMod n) + 1) (lo + ((K + 2 + s : ℕ) : ZMod n) + 1 + 1) := by
    refine Finset.sum_congr rfl fun s hs => ?_
    rw [Finset.mem_range] at hs
    simp only [off_succ]
    rw [mirror_out lo (by omega) (by omega), mirror_out lo (by omega) (by omega),
      mirror_out lo (by omega) (by omega)]
  have e4 : lo + ((K + 2 + M + 1 : ℕ) : ZMod n) = lo - 1 := off_pred lo (by omega)
  have e4' : lo + ((K + 2 + M : ℕ) : ZMod n) = lo - 1 - 1 := by
    rw [← e4]; push_cast; ring
  have e5 : mirror lo (K + 1) (lo - 1) = lo - 1 := by
    rw [← e4]; exact mirror_out lo (by omega) (by omega)
  have e5' : mirror lo (K + 1) (lo - 1 - 1) = lo - 1 - 1 := by
    rw [← e4']; exact mirror_out lo (by omega) (by omega)
  have e6 : mirror lo (K + 1) lo = lo + ((K + 1 : ℕ) : ZMod n) := by
    have := mirror_in lo (n := n) (L := K + 1) (t := 0) (by omega) (by omega)
    rwa [Nat.cast_zero, add_zero, Nat.sub_zero] at this
  have e7 : mirror lo (K + 1) (lo + 1) = lo + ((K : ℕ) : ZMod n) := by
    have := mirror_in lo (n := n) (L := K + 1) (t := 1) (by omega) (by omega)
    rwa [Nat.cast_one, Nat.add_sub_cancel] at this
  have e8 : mirror lo (K + 1) (lo + ((K : ℕ) : ZMod n)) = lo + 1 := by
    rw [← e7, mirror_mirror lo (by omega)]
  have e9 : mirror lo (K + 1) (lo + ((K + 1 : ℕ) : ZMod n)) = lo := by
    rw [← e6, mirror_mirror lo (by omega)]
  have e10 : mirror lo (K + 1) (lo + ((K + 1 + 1 : ℕ) : ZMod n)) = lo + ((K + 1 + 1 : ℕ) : ZMod n) :=
    mirror_out lo (by omega) (by omega)
  have e11 : mirror lo (K + 1) (lo + ((K + 1 + 1 + 1 : ℕ) : ZMod n)) =
      lo + ((K + 1 + 1 + 1 : ℕ) : ZMod n) := mirror_out lo (by omega) (by omega)
  have e12 : lo + ((K + 1 : ℕ) : ZMod n) - 1 = lo + ((K : ℕ) : ZMod n) := by push_cast; ring
  rw [e1, e2, e4, e4']
  simp only [sub_add_cancel, e5, e5', e6, e7, off_succ, e8, e9, e10, e11, e12]
  ring

/-! ### The energy of the system -/

/-- Energy of the angle at `y`, a function of the cosine between the bonds from `x` to `y` and from
`y` to `z`: minus one for atoms that fold back, one for a straight chain. -/
noncomputable def World.bend (w : World) (ψ : ℝ → ℝ) (x y z : Vec) : ℝ :=
  ψ ((∑ i, w.dvec y x i * w.dvec z y i) /
    (Real.sqrt (∑ i, w.dvec y x i ^ 2) * Real.sqrt (∑ i, w.dvec z y i ^ 2)))

theorem angleEnergy_eq (w : World) (ψ : ℝ → ℝ) (x y z : Vec) :
    w.angleEnergy ψ x y z = w.bend ψ x y z := by
  have e : ∀ v : Vec, sq v = ∑ i, v i ^ 2 := fun v => by
    unfold sq; rw [Fin.sum_univ_three]; ring
  unfold World.angleEnergy World.bend
  simp only [e]
  congr 1
  generalize Real.sqrt (∑ i, w.dvec y x i ^ 2) = s
  generalize Real.sqrt (∑ i, w.dvec z y i ^ 2) = t
  unfold dot
  rw [Fin.sum_univ_three]
  ring

/-- Energy of everything in which the ring takes part: `ext` is the energy of an atom of the ring
in the field of the other molecules and of external potentials; then the bonds, the pairs that are
not bonded, and the angles. -/
noncomputable def World.ringEnergy (w : World) (ext : Vec → ℝ) (r : ZMod n → Vec) : ℝ :=
  ∑ x, ext (r x) + ∑ x, w.bond (w.dsq (r x) (r (x + 1)))
    + (∑ x, ∑ y, if y = x ∨ y = x + 1 ∨ x = y + 1 then 0 else w.pair (w.dsq (r x) (r y))) / 2
    + match w.angle with
      | none => 0
      | some ψ => ∑ x, w.bend ψ (r (x - 1)) (r x) (r (x + 1))

/-- The pairs that are not bonded, in terms of all pairs. -/
theorem pair_sum (hn : 3 ≤ n) (g : ZMod n → ZMod n → ℝ) (hg : ∀ x y, g x y = g y x) :
    (∑ x, ∑ y, if y = x ∨ y = x + 1 ∨ x = y + 1 then 0 else g x y) =
      (∑ x, ∑ y, g x y) - ∑ x, g x x - 2 * ∑ x, g x (x + 1) := by
  have h1 : ∀ x : ZMod n, x + 1 ≠ x := fun x h => by
    have := off_inj x (s := 1) (t := 0) (by omega) (by omega) (by simpa using h)
    omega
  have h2 : ∀ x : ZMod n, x + 1 + 1 ≠ x := fun x h => by
    have := off_inj x (s := 2) (t := 0) (by omega) (by omega) (by
      have e : x + ((2 : ℕ) : ZMod n) = x + 1 + 1 := by push_cast; ring
      rw [e, h, Nat.cast_zero, add_zero])
    omega
  have key : ∀ x y : ZMod n, (if y = x ∨ y = x + 1 ∨ x = y + 1 then 0 else g x y) =
      g x y - (if y = x then g x y else 0) - (if y = x + 1 then g x y else 0)
        - (if y = x - 1 then g x y else 0) := by
    intro x y
    by_cases a : y = x
    · subst a
      have : ¬ (y = y - 1) := fun h => h1 y (by nth_rewrite 1 [h]; ring)
      simp [this, (h1 y).symm]
    · by_cases b : y = x + 1
      · subst b
        have : ¬ (x + 1 = x - 1) := fun h => h2 x (by rw [h]; ring)
        simp [this, h1 x]
      · by_cases c : y = x - 1
        · subst c
          simp [a, b]
        · have : ¬ (x = y + 1) := fun h => c (by rw [h]; ring)
          simp [a, b, c, this]
  simp only [key, Finset.sum_sub_distrib]
  simp only [Finset.sum_ite_eq', Finset.mem_univ, if_true]
  have : ∑ x : ZMod n, g x (x - 1) = ∑ x, g x (x + 1) := by
    rw [← sum_shift]
    refine Finset.sum_congr rfl fun x _ => ?_
    rw [add_sub_cancel_right]
    exact hg _ _
  rw [this]; ring

/-- What the minimum image convention has to provide for the positions of the ring. -/
structure World.Even (w : World) (r : ZMod n → Vec) : Prop where
  dsq : ∀ x y, w.dsq (r x) (r y) = w.dsq (r y) (r x)
  dvec : w.angle ≠ none → ∀ x y, w.dvec (r x) (r y) = -w.dvec (r y) (r x)

theorem sq_neg (v : Vec) : sq (-v) = sq v := by
  unfold sq; simp

theorem angleEnergy_symm (w : World) (ψ : ℝ → ℝ) {x y z : Vec} (h1 : w.dvec x y = -w.dvec y x)
    (h2 : w.dvec y z = -w.dvec z y) : w.angleEnergy ψ x y z = w.angleEnergy ψ z y x := by
  unfold World.angleEnergy
  simp only [h1, h2, sq_neg]
  congr 1
  unfold dot
  simp only [Pi.neg_apply]
  ring

theorem tetraEnergy_symm (w : World) {r : ZMod n → Vec} (h : w.Even r) (ia ic : ZMod n) :
    w.tetraEnergy r ia ic = w.tetraEnergy r ic ia := by
  have e1 := h.dsq ic ia
  have e2 := h.dsq (ic + 1) (ia + 1)
  unfold World.tetraEnergy
  simp only [e1, e2]
  rcases ha : w.angle with _ | ψ
  · simp only; ring
  · have hd : ∀ x y, w.dvec (r x) (r y) = -w.dvec (r y) (r x) := h.dvec (by rw [ha]; simp)
    have hs : ∀ x y z, w.angleEnergy ψ (r x) (r y) (r z) = w.angleEnergy ψ (r z) (r y) (r x) :=
      fun x y z => angleEnergy_symm w ψ (hd x y) (hd y z)
    simp only
    rw [hs (ic - 1) ic ia, hs ic ia (ia - 1), hs (ic + 1 + 1) (ic + 1) (ia + 1),
      hs (ic + 1) (ia + 1) (ia + 1 + 1)]
    ring

/-- Reversal of an arc: the energy changes by what `tetraEnergy` computes for the two bonds at its
ends. -/
theorem energy_mirror (w : World) (ext : Vec → ℝ) {r : ZMod n → Vec} (h : w.Even r) (lo : ZMod n)
    {L : ℕ} (h1 : 1 ≤ L) (hL : L + 3 ≤ n) :
    w.ringEnergy ext (fun x => r (mirror lo L x)) =
      w.ringEnergy ext r + w.tetraEnergy r (lo - 1) (lo + (L : ℕ)) := by
  have hLn : L < n := by omega
  let σ : Equiv.Perm (ZMod n) :=
    ⟨mirror lo L, mirror lo L, mirror_mirror lo hLn, mirror_mirror lo hLn⟩
  have hσ : ∀ x, σ x = mirror lo L x := fun _ => rfl
  have e0 : ∑ x, ext (r (mirror lo L x)) = ∑ x, ext (r x) := Equiv.sum_comp σ (fun x => ext (r x))
  have eb : ∀ f : ℝ → ℝ, ∑ x, f (w.dsq (r (mirror lo L x)) (r (mirror lo L (x + 1)))) =
      ∑ x, f (w.dsq (r x) (r (x + 1))) - f (w.dsq (r (lo - 1)) (r lo))
        - f (w.dsq (r (lo + (L : ℕ))) (r (lo + (L : ℕ) + 1)))
        + f (w.dsq (r (lo - 1)) (r (lo + (L : ℕ)))) + f (w.dsq (r lo) (r (lo + (L : ℕ) + 1))) :=
    fun f => sum_bonds (fun x y => f (w.dsq (r x) (r y))) (fun x y => by simp only [h.dsq x y]) lo
      (by omega)
  have ep : ∑ x, ∑ y, w.pair (w.dsq (r (mirror lo L x)) (r (mirror lo L y))) =
      ∑ x, ∑ y, w.pair (w.dsq (r x) (r y)) := by
    rw [← Equiv.sum_comp σ (fun x => ∑ y, w.pair (w.dsq (r x) (r y)))]
    refine Finset.sum_congr rfl fun x _ => ?_
    exact Equiv.sum_comp σ (fun y => w.pair (w.dsq (r (σ x)) (r y)))
  have es : ∑ x, w.pair (w.dsq (r (mirror lo L x)) (r (mirror lo L x))) =
      ∑ x, w.pair (w.dsq (r x) (r x)) :=
    Equiv.sum_comp σ (fun x => w.pair (w.dsq (r x) (r x)))
  unfold World.ringEnergy
  rw [pair_sum (by omega) (fun x y => w.pair (w.dsq (r (mirror lo L x)) (r (mirror lo L y))))
      (fun x y => by simp only [h.dsq]),
    pair_sum (by omega) (fun x y => w.pair (w.dsq (r x) (r y))) (fun x y => by simp only [h.dsq x y]),
    e0, eb w.bond, eb w.pair, ep, es]
  unfold World.tetraEnergy
  simp only [sub_add_cancel]
  rcases ha : w.angle with _ | ψ
  · simp only; ring
  · have hd : ∀ x y, w.dvec (r x) (r y) = -w.dvec (r y) (r x) := h.dvec (by rw [ha]; simp)
    have hs : ∀ x y z, w.angleEnergy ψ (r x) (r y) (r z) = w.angleEnergy ψ (r z) (r y) (r x) :=
      fun x y z => angleEnergy_symm w ψ (hd x y) (hd y z)
    simp only [← angleEnergy_eq]
    rw [sum_triples (fun x y z => w.angleEnergy ψ (r x) (r y) (r z)) hs lo h1 hL]
    ring

/-- The energy that the move computes is the change of the total energy. -/
theorem energy_reconnect (w : World) (ext : Vec → ℝ) {r : ZMod n → Vec} (h : w.Even r)
    {ia ic : ZMod n} {i : ℕ} (hi : i < n - 3) (hc : ic = ia + 1 + ((i + 1 : ℕ) : ZMod n)) :
    w.ringEnergy ext (reconnect r ia ic) = w.ringEnergy ext r + w.tetraEnergy r ia ic := by
  obtain ⟨hb, hd⟩ := cand_off hi hc
  rw [reconnect_eq]
  unfold arc
  split
  · simp only
    rw [energy_mirror w ext h (ia + 1) (by omega) (by omega), ZMod.natCast_zmod_val]
    simp only [add_sub_cancel_right, add_sub_cancel]
  · simp only
    rw [energy_mirror w ext h (ic + 1) (by omega) (by omega), ZMod.natCast_zmod_val]
    simp only [add_sub_cancel_right, add_sub_cancel]
    rw [tetraEnergy_symm w h]

end Verif.Rebridge
