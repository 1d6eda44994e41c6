/-
C74: a ring for which detailed balance fails, and cases that meet the hypotheses of the theorems.
-/
import Verif.Rebridge.Props
import Mathlib.Tactic.NormNum
import Mathlib.Data.Fin.VecNotation

set_option autoImplicit false

namespace Verif.Rebridge

open Verif.Boundary
open scoped ENNReal

/-- Free space: a cell that is large compared to the molecule. -/
noncomputable def free (bond pair : ℝ → ℝ) (angle : Option (ℝ → ℝ)) (lower upper beta : ℝ) : World where
  dsq x y := sq (x - y)
  dvec x y := x - y
  bond := bond
  pair := pair
  angle := angle
  lower := lower
  upper := upper
  beta := beta

theorem free_even {n : ℕ} (bond pair : ℝ → ℝ) (angle : Option (ℝ → ℝ)) (lo up β : ℝ)
    (r : ZMod n → Vec) : (free bond pair angle lo up β).Even r :=
  ⟨fun _ _ => sq_comm _ _, fun _ _ _ => (neg_sub _ _).symm⟩

theorem free_flat {n : ℕ} (bond pair : ℝ → ℝ) (angle : Option (ℝ → ℝ)) (lo up β : ℝ)
    (r : ZMod n → Vec) : (free bond pair angle lo up β).Flat r r :=
  ⟨fun _ => rfl, fun _ => rfl, fun _ => rfl, fun _ _ _ => ⟨rfl, rfl⟩⟩

/-- Six sites in a plane. -/
def px : Fin 6 → ℤ := ![0, 10, 5, 17, 10, 0]
def py : Fin 6 → ℤ := ![0, 0, -10, -3, 10, 10]

def zs (i j : ZMod 6) : ℤ := (px i - px j) * (px i - px j) + (py i - py j) * (py i - py j)

/-- Ring through the six sites, in the order given by `m`. -/
noncomputable def hexa (m : ZMod 6 → ZMod 6) : ZMod 6 → Vec :=
  fun x => ![(px (m x) : ℝ), (py (m x) : ℝ), 0]

/-- No energies; distances below 15 are in range. -/
noncomputable def ideal : World := free (fun _ => 0) (fun _ => 0) none 0 15 1

def near (i j : ZMod 6) : Prop := 0 < zs i j ∧ zs i j < 225

instance (i j : ZMod 6) : Decidable (near i j) := by unfold near; infer_instance

theorem ideal_range (m : ZMod 6 → ZMod 6) (x y : ZMod 6) :
    ideal.inRange (sq (hexa m x - hexa m y)) ↔ near (m x) (m y) := by
  have : sq (hexa m x - hexa m y) = (zs (m x) (m y) : ℝ) := by
    unfold sq hexa zs
    simp
  rw [this]
  unfold World.inRange near ideal free
  simp only
  constructor
  · rintro ⟨h1, h2⟩
    refine ⟨by have : (0 : ℝ) < (zs (m x) (m y) : ℝ) := by linarith
               exact_mod_cast this, ?_⟩
    have : (zs (m x) (m y) : ℝ) < (225 : ℤ) := by push_cast; linarith
    exact_mod_cast this
  · rintro ⟨h1, h2⟩
    have h1' : (0 : ℝ) < (zs (m x) (m y) : ℝ) := by exact_mod_cast h1
    have h2' : (zs (m x) (m y) : ℝ) < 225 := by exact_mod_cast h2
    constructor <;> linarith

/-- The candidates, as a condition on integers. -/
def cand (m : ZMod 6 → ZMod 6) (ia ic : ZMod 6) : Prop :=
  (∃ i : Fin 3, ic = ia + 1 + ((i.val + 1 : ℕ) : ZMod 6)) ∧ near (m ia) (m (ia + 1)) ∧
    near (m ic) (m (ic + 1)) ∧ near (m ia) (m ic) ∧ near (m (ia + 1)) (m (ic + 1))

instance (m : ZMod 6 → ZMod 6) (ia ic : ZMod 6) : Decidable (cand m ia ic) := by
  unfold cand; infer_instance

theorem mem_ideal (m : ZMod 6 → ZMod 6) (ia ic : ZMod 6) :
    ic ∈ ideal.scan (hexa m) ia ↔ cand m ia ic := by
  have hf : ideal.Flat (hexa m) (hexa m) := free_flat _ _ _ _ _ _ _
  rw [mem_scan_flat hf, ideal_range, ideal_range, ideal_range,
    ideal_range]
  unfold cand
  refine and_congr ⟨?_, ?_⟩ Iff.rfl
  · rintro ⟨i, hi, h⟩; exact ⟨⟨i, by omega⟩, h⟩
  · rintro ⟨i, h⟩; exact ⟨i.val, by have := i.isLt; omega, h⟩

theorem site_inj : ∀ i j : ZMod 6, px i = px j ∧ py i = py j → i = j := by
  show ∀ i j : Fin 6, px i = px j ∧ py i = py j → i = j
  decide

theorem hexa_inj {m m' : ZMod 6 → ZMod 6} (h : hexa m = hexa m') : m = m' := by
  funext x
  have h1 := congrFun (congrFun h x) 0
  have h2 := congrFun (congrFun h x) 1
  simp only [hexa, Matrix.cons_val_zero, Matrix.cons_val_one] at h1 h2
  exact site_inj _ _ ⟨by exact_mod_cast h1, by exact_mod_cast h2⟩

def move6 (m : ZMod 6 → ZMod 6) (ia ic : ZMod 6) : ZMod 6 → ZMod 6 :=
  fun x => m (mirror (arc ia ic).1 (arc ia ic).2 x)

theorem reconnect_hexa (m : ZMod 6 → ZMod 6) (ia ic : ZMod 6) :
    reconnect (hexa m) ia ic = hexa (move6 m ia ic) := by
  rw [reconnect_eq]; rfl

/-- Candidates of `ia`, and those of them that lead to `m'`. -/
def cands (m : ZMod 6 → ZMod 6) (ia : ZMod 6) : Finset (ZMod 6) := Finset.univ.filter (cand m ia)
def paths (m m' : ZMod 6 → ZMod 6) (ia : ZMod 6) : Finset (ZMod 6) :=
  Finset.univ.filter fun ic => cand m ia ic ∧ move6 m ia ic = m'

theorem ideal_accept (m : ZMod 6 → ZMod 6) (ia ic : ZMod 6) : ideal.accept (hexa m) ia ic = 1 := by
  have : ideal.tetraEnergy (hexa m) ia ic = 0 := by
    unfold World.tetraEnergy ideal free; simp
  unfold World.accept
  rw [this]; simp

theorem ideal_length (m : ZMod 6 → ZMod 6) (ia : ZMod 6) :
    (ideal.scan (hexa m) ia).length = (cands m ia).card := by
  rw [← List.toFinset_card_of_nodup (nodup_scan _ _ _)]
  congr 1
  ext ic
  rw [List.mem_toFinset, mem_ideal, cands, Finset.mem_filter]
  simp

theorem ideal_passage (m m' : ZMod 6 → ZMod 6) :
    ideal.passage (hexa m) (hexa m') = ∑ ia : ZMod 6, (6 : ℝ≥0∞)⁻¹ *
      (((paths m m' ia).card : ℝ≥0∞) * ((cands m ia).card : ℝ≥0∞)⁻¹) := by
  classical
  rw [passage_eq]
  refine Finset.sum_congr rfl fun ia _ => ?_
  congr 1
  have : (ideal.scan (hexa m) ia).toFinset.filter (fun ic => reconnect (hexa m) ia ic = hexa m') =
      paths m m' ia := by
    ext ic
    rw [paths, Finset.mem_filter, Finset.mem_filter, List.mem_toFinset, mem_ideal, reconnect_hexa]
    simp only [Finset.mem_univ, true_and]
    exact and_congr Iff.rfl ⟨fun h => hexa_inj h, fun h => by rw [h]⟩
  rw [this, ideal_length]
  simp only [ideal_accept, mul_one, Finset.sum_const, nsmul_eq_mul]

/-- The ring after reconnection of `0 - 1` and `2 - 3`. -/
def twisted : ZMod 6 → ZMod 6 := move6 id 0 2

theorem forward_paths : ∀ ia : ZMod 6, (paths id twisted ia).card = if ia = 0 ∨ ia = 2 then 1 else 0 := by
  decide +kernel

theorem backward_paths : ∀ ia : ZMod 6, (paths twisted id ia).card = if ia = 0 ∨ ia = 2 then 1 else 0 := by
  decide +kernel

theorem counts : (cands id 0).card = 2 ∧ (cands id 2).card = 1 ∧ (cands twisted 0).card = 1 ∧
    (cands twisted 2).card = 1 := by
  decide +kernel

theorem two_terms (c : ZMod 6 → ℝ≥0∞) :
    ∑ ia : ZMod 6, (6 : ℝ≥0∞)⁻¹ * (((if ia = 0 ∨ ia = 2 then 1 else 0 : ℕ) : ℝ≥0∞) * c ia) =
      6⁻¹ * c 0 + 6⁻¹ * c 2 := by
  rw [← Finset.sum_subset (Finset.subset_univ ({0, 2} : Finset (ZMod 6)))]
  · rw [Finset.sum_pair (by decide)]
    simp
  · intro x _ hx
    have : ¬ (x = 0 ∨ x = 2) := by simpa using hx
    simp [this]

/-- Detailed balance fails for rings of six atoms: with no energies at all, every ring has the same
weight, but a certain ring is reached from another with probability 1/4 and left toward it with
probability 1/3.  Acceptance takes no account of the numbers of candidates in the two directions. -/
theorem C74_balance_violated : ∃ (w : World) (r r' : ZMod 6 → Vec), w.Even r ∧ w.Even r' ∧
    w.Flat r r ∧ w.Flat r' r' ∧ (∀ ext, w.weight ext r = w.weight ext r') ∧
    w.passage r r' = 4⁻¹ ∧ w.passage r' r = 3⁻¹ := by
  refine ⟨ideal, hexa id, hexa twisted, free_even _ _ _ _ _ _ _, free_even _ _ _ _ _ _ _,
    free_flat _ _ _ _ _ _ _, free_flat _ _ _ _ _ _ _, ?_, ?_, ?_⟩
  · intro ext
    have hm : (2 : ZMod 6) ∈ ideal.scan (hexa id) 0 := by
      rw [mem_ideal]; decide +kernel
    have := C74_energy ideal ext (free_even _ _ _ _ _ _ (hexa id)) hm
    rw [reconnect_hexa] at this
    have h0 : ideal.tetraEnergy (hexa id) 0 2 = 0 := by
      unfold World.tetraEnergy ideal free; simp
    have h1 : ideal.ringEnergy ext (hexa twisted) = ideal.ringEnergy ext (hexa id) := by
      have e : move6 id 0 2 = twisted := rfl
      rw [e] at this
      linarith
    unfold World.weight
    rw [h1]
  · rw [ideal_passage]
    simp only [forward_paths]
    rw [two_terms (fun ia => ((cands id ia).card : ℝ≥0∞)⁻¹), counts.1, counts.2.1]
    rw [← ENNReal.toReal_eq_toReal_iff' (by finiteness) (by finiteness)]
    rw [ENNReal.toReal_add (by finiteness) (by finiteness)]
    simp
    norm_num
  · rw [ideal_passage]
    simp only [backward_paths]
    rw [two_terms (fun ia => ((cands twisted ia).card : ℝ≥0∞)⁻¹), counts.2.2.1, counts.2.2.2]
    rw [← ENNReal.toReal_eq_toReal_iff' (by finiteness) (by finiteness)]
    rw [ENNReal.toReal_add (by finiteness) (by finiteness)]
    simp
    norm_num

/-! ### Cases that meet the hypotheses -/

/-- A square with all kinds of energies. -/
noncomputable def square : ZMod 4 → Vec :=
  fun x => ![((![0, 1, 1, 0] : Fin 4 → ℤ) x : ℝ), ((![0, 0, 1, 1] : Fin 4 → ℤ) x : ℝ), 0]

noncomputable def real : World := free (fun x => 3 * x) (fun x => 1 / x) (some fun c => 1 - c) 0 2 1

/-- The move of the square finds a candidate, so that `C74_bonds`, `C74_energy`, `C74_reversible`,
`C74_four` are not vacuous. -/
theorem square_scan : (2 : ZMod 4) ∈ real.scan square 0 := by
  have hf : real.Flat square square := free_flat _ _ _ _ _ _ _
  rw [mem_scan_flat hf]
  have e0 : square 0 = ![0, 0, 0] := by
    show (![((0 : ℤ) : ℝ), ((0 : ℤ) : ℝ), 0] : Vec) = _; simp
  have e1 : square (0 + 1) = ![1, 0, 0] := by
    show (![((1 : ℤ) : ℝ), ((0 : ℤ) : ℝ), 0] : Vec) = _; simp
  have e2 : square 2 = ![1, 1, 0] := by
    show (![((1 : ℤ) : ℝ), ((1 : ℤ) : ℝ), 0] : Vec) = _; simp
  have e3 : square (2 + 1) = ![0, 1, 0] := by
    show (![((0 : ℤ) : ℝ), ((1 : ℤ) : ℝ), 0] : Vec) = _; simp
  rw [e0, e1, e2, e3]
  refine ⟨⟨0, by norm_num, by decide⟩, ?_, ?_, ?_, ?_⟩ <;>
    (unfold World.inRange sq real free; simp; norm_num)

example (ext : Vec → ℝ) : real.tetraEnergy square 0 2 =
    real.ringEnergy ext (reconnect square 0 2) - real.ringEnergy ext square :=
  C74_energy real ext (free_even _ _ _ _ _ _ _) square_scan

/-- The candidate is tried, and accepted if the deviate is 0. -/
example : ∃ k, (real.move square 0 k 0).2 = true := by
  obtain ⟨k, hk⟩ := List.mem_iff_getElem?.1 square_scan
  refine ⟨k, ?_⟩
  unfold World.move
  rw [hk]
  simp only
  rw [if_pos ((McMoves.metropolis_iff _ _).2 (Or.inr (Real.exp_pos _)))]

/-- Detailed balance of the square and its rebridged form. -/
example (ext : Vec → ℝ) : real.weight ext square * real.passage square (reconnect square 0 2) =
    real.weight ext (reconnect square 0 2) * real.passage (reconnect square 0 2) square :=
  C74_four real ext (free_even _ _ _ _ _ _ _) (free_flat _ _ _ _ _ _ square)
    (free_even _ _ _ _ _ _ _) (free_flat _ _ _ _ _ _ _)

/-- `modId` of an index one below zero. -/
example : modId (-1) 6 = 5 ∧ modId 7 6 = 1 := by decide

end Verif.Rebridge
