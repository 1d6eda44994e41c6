/-
Perturbations of the Hamiltonian (src/mcMd/perturb/LinearPerturbation.h and
src/mcMd/perturb/mcSystem).

Simplifications: `double` is ℝ; the loop over cells is a list of the unmasked pairs
it visits (see the cell list of Monte Carlo simulation); the interaction of a pair is
its strength epsilon times a function of the positions, as for `LJPair`; the external
interaction is the external parameter times a function of the position.
-/
import Verif.Cpp.Outcome
import Mathlib.Data.Real.Basic
import Mathlib.Tactic.Linarith
import Mathlib.Tactic.FieldSimp
import Mathlib.Tactic.Ring
import Mathlib.Tactic.NormNum
import Mathlib.Algebra.BigOperators.Group.List.Basic

set_option autoImplicit false

namespace Verif.Replica

open Verif.Cpp Verif.Cpp.Out

/-- A pair visited by the loop over cells: the types of its atoms, and its energy for
unit strength. -/
structure PairTerm where
  t1 : ℕ
  t2 : ℕ
  u : ℝ

/-- An atom in an external field: its energy for unit parameter. -/
abbrev ExtTerm := ℝ

/-- A system: inverse temperature, strengths of pair interactions, the external
parameter, the visited pairs, the atoms, and the part of the energy that has no
parameter. -/
structure PSys where
  beta : ℝ
  eps : ℕ → ℕ → ℝ
  ext : ℝ
  pairs : List PairTerm
  atoms : List ExtTerm
  rest : ℝ

/-- Energy of pairs. -/
noncomputable def pairEnergy (s : PSys) : ℝ := (s.pairs.map fun p => s.eps p.t1 p.t2 * p.u).sum

/-- Energy of the external field. -/
noncomputable def extEnergy (s : PSys) : ℝ := (s.atoms.map fun u => s.ext * u).sum

/-- `McSystem::potentialEnergy`. -/
noncomputable def potentialEnergy (s : PSys) : ℝ := pairEnergy s + extEnergy s + s.rest

/-- `setEpsilon(0, 1, x)`: both orders of the types (LJPair.cpp). -/
def setEps (s : PSys) (x : ℝ) : PSys :=
  { s with eps := fun i j => if (i = 0 ∧ j = 1) ∨ (i = 1 ∧ j = 0) then x else s.eps i j }

/-- `setExternalParameter`. -/
def setExt (s : PSys) (x : ℝ) : PSys := { s with ext := x }

/-- `setTemperature(1/x)`. -/
def setBeta (s : PSys) (x : ℝ) : PSys := { s with beta := x }

/-- `McEnergyPerturbation::derivative`, McEnergyPerturbation.cpp:58-64. -/
noncomputable def energyDerivative (s : PSys) : ℝ := potentialEnergy s

/-- Energy of pairs of different types, McPairPerturbation.h:227-266. -/
noncomputable def unlikeEnergy (s : PSys) : ℝ :=
  s.pairs.foldl (fun e p => if p.t1 ≠ p.t2 then e + s.eps p.t1 p.t2 * p.u else e) 0

/-- `McPairPerturbation::derivative`, McPairPerturbation.h:202-277; `par` is `parameter_[0]`.
-/
noncomputable def pairDerivative (s : PSys) (par : ℝ) : ℝ := unlikeEnergy s * s.beta / par

/-- Loop of `McExternalPerturbation::derivative`, McExternalPerturbation.cpp:101-113. -/
noncomputable def extLoop (s : PSys) : ℝ := s.atoms.foldl (fun e u => e + s.ext * u) 0

/-- `McExternalPerturbation::derivative`, McExternalPerturbation.cpp:83-124. -/
noncomputable def extDerivative (s : PSys) (par : ℝ) : ℝ := extLoop s * s.beta / par

/-- `McPairExternalPerturbation::derivative(1)`, McPairExternalPerturbation.h:283-307. -/
noncomputable def pairExtDerivative1 (s : PSys) (par : ℝ) : ℝ := -1 * (extLoop s * s.beta / par)

/-- `LinearPerturbation::difference`, LinearPerturbation.h:95-103. -/
noncomputable def difference (cur partner der : List ℝ) : ℝ :=
  (List.range cur.length).foldl
    (fun d i => d + (partner.getD i 0 - cur.getD i 0) * der.getD i 0) 0

/-! ### Lemmas -/

theorem unlikeEnergy_eq (s : PSys) :
    unlikeEnergy s = (s.pairs.map fun p => if p.t1 ≠ p.t2 then s.eps p.t1 p.t2 * p.u else 0).sum := by
  unfold unlikeEnergy
  have key : ∀ (l : List PairTerm) (a : ℝ),
      l.foldl (fun e p => if p.t1 ≠ p.t2 then e + s.eps p.t1 p.t2 * p.u else e) a =
        a + (l.map fun p => if p.t1 ≠ p.t2 then s.eps p.t1 p.t2 * p.u else 0).sum := by
    intro l
    induction l with
    | nil => intro a; simp
    | cons p l ih =>
      intro a
      rw [List.foldl_cons, ih, List.map_cons, List.sum_cons]
      split <;> ring
  rw [key, zero_add]

theorem extLoop_eq (s : PSys) : extLoop s = extEnergy s := by
  unfold extLoop extEnergy
  have key : ∀ (l : List ExtTerm) (a : ℝ),
      l.foldl (fun e u => e + s.ext * u) a = a + (l.map fun u => s.ext * u).sum := by
    intro l
    induction l with
    | nil => intro a; simp
    | cons p l ih =>
      intro a
      rw [List.foldl_cons, ih, List.map_cons, List.sum_cons]
      ring
  rw [key, zero_add]

theorem extEnergy_set (s : PSys) (x : ℝ) : extEnergy (setExt s x) = x * s.atoms.sum := by
  unfold extEnergy setExt
  dsimp only
  induction s.atoms with
  | nil => simp
  | cons a l ih => rw [List.map_cons, List.sum_cons, ih, List.sum_cons]; ring

/-- Energy of pairs of the types 0 and 1 for unit strength. -/
noncomputable def unit01 (s : PSys) : ℝ :=
  (s.pairs.map fun p => if (p.t1 = 0 ∧ p.t2 = 1) ∨ (p.t1 = 1 ∧ p.t2 = 0) then p.u else 0).sum

/-- Energy of all other pairs. -/
noncomputable def otherPairs (s : PSys) : ℝ :=
  (s.pairs.map fun p => if (p.t1 = 0 ∧ p.t2 = 1) ∨ (p.t1 = 1 ∧ p.t2 = 0) then 0
    else s.eps p.t1 p.t2 * p.u).sum

theorem pairEnergy_set (s : PSys) (x : ℝ) :
    pairEnergy (setEps s x) = x * unit01 s + otherPairs s := by
  unfold pairEnergy setEps unit01 otherPairs
  dsimp only
  induction s.pairs with
  | nil => simp
  | cons p l ih =>
    rw [List.map_cons, List.sum_cons, ih, List.map_cons, List.sum_cons, List.map_cons,
      List.sum_cons]
    split <;> ring

theorem unlikeEnergy_set (s : PSys) (x : ℝ) (h : ∀ p ∈ s.pairs, p.t1 < 2 ∧ p.t2 < 2) :
    unlikeEnergy (setEps s x) = x * unit01 s := by
  rw [unlikeEnergy_eq]
  unfold setEps unit01
  dsimp only
  revert h
  induction s.pairs with
  | nil => simp
  | cons p l ih =>
    intro h
    rw [List.map_cons, List.sum_cons, ih (fun q hq => h q (by simp [hq])), List.map_cons,
      List.sum_cons]
    obtain ⟨h1, h2⟩ := h p (by simp)
    by_cases hp : (p.t1 = 0 ∧ p.t2 = 1) ∨ (p.t1 = 1 ∧ p.t2 = 0)
    · rw [if_pos hp, if_pos hp, if_pos (by omega)]; ring
    · simp only [if_neg hp, if_neg (show ¬ (p.t1 ≠ p.t2) by omega)]; ring

end Verif.Replica
