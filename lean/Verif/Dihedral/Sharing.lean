import Verif.Dihedral.Props
import Mathlib.Algebra.BigOperators.Group.Finset.Basic
import Mathlib.Algebra.BigOperators.Fin
import Mathlib.Data.Fintype.Card

/-!
# Energy and stress of groups shared between processors (C52)

The loops of `computeEnergy` and `computeStress` of the ddMd bond, angle and dihedral potentials,
with the sum over processors made by `Potential::reduceEnergy` and `Potential::reduceStress`
(src/ddMd/potentials/Potential.cpp:120-158). Minimum image bond vectors are taken to be the same on
all processors.
-/

set_option autoImplicit false

namespace Verif.Dihedral.Sharing

open Verif.Boundary hiding dot
open Verif.Pair Verif.Dihedral

/-! ## Model -/

/-- One group of `N` atoms: `owner` gives the processor that owns each atom. -/
def nLocal {P : Type} [DecidableEq P] {N : ℕ} (owner : Fin N → P) (p : P) : ℤ :=
  ((Finset.univ : Finset (Fin N)).filter fun a => owner a = p).card

/-- Contribution of a bond to the energy (ddMd BondPotentialImpl.h:437-444). -/
noncomputable def bondEnergy (e : ℝ) (isLocal0 isLocal1 : Bool) : ℝ :=
  if isLocal0 && isLocal1 then e else 0.5 * e

/-- Contribution of a bond to the stress (ddMd BondPotentialImpl.h:491-499), `F` being
`forceOverR`. -/
noncomputable def bondStress (F : ℝ) (dr : Vec) (isLocal0 isLocal1 : Bool) (i j : Fin 3) : ℝ :=
  let forceOverR := if isLocal0 && isLocal1 then F else 0.5 * F
  (dr i * forceOverR) * dr j

/-- Contribution of a bond to the stress in `computeForcesAndStress`
(ddMd BondPotentialImpl.h:543-561). -/
noncomputable def bondStress' (F : ℝ) (dr : Vec) (isLocal0 isLocal1 : Bool) (i j : Fin 3) : ℝ :=
  let f : Vec := fun k => dr k * F
  let f : Vec := if !(isLocal0 && isLocal1) then fun k => f k * 0.5 else f
  f i * dr j

/-- Loop over the groups stored on one processor, accumulating one number. -/
def localSum {G : Type} (contrib : G → ℝ) (stored : List G) : ℝ :=
  stored.foldl (fun acc g => acc + contrib g) 0

/-- Sum over processors (`MPI::SUM`). -/
noncomputable def reduce {P : Type} [Fintype P] (x : P → ℝ) : ℝ := ∑ p, x p

/-! ## Specification -/

/-- The lists `stored` of groups on the processors are those of a distributed system with groups
`all`: each processor has, once each, exactly the groups with at least one atom that it owns. -/
def Distributed {P G : Type} {N : ℕ} (all : List G) (owner : G → Fin N → P) (stored : P → List G) : Prop :=
  all.Nodup ∧ ∀ p, (stored p).Nodup ∧ ∀ g, g ∈ stored p ↔ g ∈ all ∧ ∃ a, owner g a = p

/-- Virial of forces `f` on atoms at `R`: sum of force times position. -/
def virial {N : ℕ} (f R : Fin N → Vec) (i j : Fin 3) : ℝ := ∑ a, f a i * R a j

/-! ## Lemmas -/

theorem localSum_eq {G : Type} (contrib : G → ℝ) (l : List G) : localSum contrib l = (l.map contrib).sum := by
  have : ∀ (l : List G) (x : ℝ), l.foldl (fun acc g => acc + contrib g) x = x + (l.map contrib).sum := by
    intro l
    induction l with
    | nil => intro x; simp
    | cons a l ih => intro x; simp [ih, add_assoc]
  rw [localSum, this, zero_add]

variable {P G : Type} [Fintype P] [DecidableEq P]

/-- The sum over processors of the sums over stored groups is the sum over groups of the sums over
the processors that own one of their atoms. -/
theorem reduce_eq {N : ℕ} {all : List G} {owner : G → Fin N → P} {stored : P → List G}
    (h : Distributed all owner stored) (contrib : P → G → ℝ) (total : G → ℝ)
    (ht : ∀ g ∈ all, (∑ p, if ∃ a, owner g a = p then contrib p g else 0) = total g) :
    reduce (fun p => localSum (contrib p) (stored p)) = (all.map total).sum := by
  classical
  obtain ⟨hn, hs⟩ := h
  have e : ∀ p, localSum (contrib p) (stored p)
      = ∑ g ∈ all.toFinset, if ∃ a, owner g a = p then contrib p g else 0 := by
    intro p
    rw [localSum_eq, ← List.sum_toFinset _ (hs p).1, ← Finset.sum_filter]
    apply Finset.sum_congr _ (fun _ _ => rfl)
    ext g
    simp [(hs p).2 g]
  unfold reduce
  simp only [e]
  rw [Finset.sum_comm, ← List.sum_toFinset _ hn]
  apply Finset.sum_congr rfl
  intro g hg
  exact ht g (by simpa using hg)

theorem sum_nLocal {N : ℕ} (owner : Fin N → P) : ∑ p, nLocal owner p = N := by
  unfold nLocal
  have := Finset.card_eq_sum_card_fiberwise (f := owner) (s := Finset.univ) (t := Finset.univ) (by simp)
  rw [Finset.card_univ, Fintype.card_fin] at this
  exact_mod_cast this.symm

theorem nLocal_zero {N : ℕ} {owner : Fin N → P} {p : P} (h : ¬ ∃ a, owner a = p) : nLocal owner p = 0 := by
  unfold nLocal
  rw [Finset.filter_eq_empty_iff.2]
  · simp
  · intro a _ ha; exact h ⟨a, ha⟩

/-- Contributions proportional to the number of local atoms. -/
theorem share {N : ℕ} (owner : Fin N → P) (x : ℝ) :
    (∑ p, if ∃ a, owner a = p then (nLocal owner p : ℝ) * x else 0) = N * x := by
  have : ∀ p, (if ∃ a, owner a = p then (nLocal owner p : ℝ) * x else 0) = (nLocal owner p : ℝ) * x := by
    intro p
    split
    · rfl
    · rename_i h; rw [nLocal_zero h]; simp
  simp only [this]
  rw [← Finset.sum_mul]
  congr 1
  exact_mod_cast sum_nLocal owner

/-- Contributions of a bond. -/
theorem share2 (owner : Fin 2 → P) (x : ℝ) :
    (∑ p, if ∃ a, owner a = p then
      (if (decide (owner 0 = p) && decide (owner 1 = p)) then x else 0.5 * x) else 0) = x := by
  have e : ∀ p, (if ∃ a, owner a = p then
      (if (decide (owner 0 = p) && decide (owner 1 = p)) then x else 0.5 * x) else 0)
      = (if owner 0 = p then x / 2 else 0) + (if owner 1 = p then x / 2 else 0) := by
    intro p
    by_cases h0 : owner 0 = p <;> by_cases h1 : owner 1 = p <;>
      simp [h0, h1, Fin.exists_fin_two] <;> norm_num <;> ring
  simp only [e]
  rw [Finset.sum_add_distrib]
  simp

/-! ## C52: energies -/

/-- The total bond energy is the sum over bonds, however the atoms are distributed. -/
theorem C52_bond_energy {all : List G} {owner : G → Fin 2 → P} {stored : P → List G}
    (h : Distributed all owner stored) (e : G → ℝ) :
    reduce (fun p => localSum (fun g => bondEnergy (e g) (owner g 0 = p) (owner g 1 = p)) (stored p))
      = (all.map e).sum :=
  reduce_eq h (fun p g => bondEnergy (e g) (owner g 0 = p) (owner g 1 = p)) e
    (fun g _ => share2 (owner g) (e g))

/-- The total angle energy is the sum over angles. -/
theorem C52_angle_energy {all : List G} {owner : G → Fin 3 → P} {stored : P → List G}
    (h : Distributed all owner stored) (e : G → ℝ) :
    reduce (fun p => localSum (fun g => Angle.ddEnergy (e g) (nLocal (owner g) p)) (stored p))
      = (all.map e).sum := by
  refine reduce_eq h (fun p g => Angle.ddEnergy (e g) (nLocal (owner g) p)) e (fun g _ => ?_)
  unfold Angle.ddEnergy
  simp only [mul_assoc]
  rw [share]
  push_cast; ring

/-- The total dihedral energy is the sum over dihedrals. -/
theorem C52_dihedral_energy {all : List G} {owner : G → Fin 4 → P} {stored : P → List G}
    (h : Distributed all owner stored) (e : G → ℝ) :
    reduce (fun p => localSum (fun g => ddEnergy (e g) (nLocal (owner g) p)) (stored p))
      = (all.map e).sum := by
  refine reduce_eq h (fun p g => ddEnergy (e g) (nLocal (owner g) p)) e (fun g _ => ?_)
  unfold ddEnergy
  simp only [mul_assoc]
  rw [share]
  push_cast; norm_num; ring

/-! ## C52: stress -/

/-- Bond vectors of a bond, an angle or a dihedral. -/
def bondVec {N : ℕ} (R : Fin (N + 1) → Vec) (k : Fin N) : Vec := fun i => R k.succ i - R k.castSucc i

/-- The total bond stress, before division by the volume, is the virial of the bond forces,
however the atoms are distributed, in both functions that compute it. -/
theorem C52_bond_stress {all : List G} {owner : G → Fin 2 → P} {stored : P → List G}
    (h : Distributed all owner stored) (R : G → Fin 2 → Vec) (F : G → ℝ) (i j : Fin 3) :
    reduce (fun p => localSum (fun g => bondStress (F g) (fun k => R g 0 k - R g 1 k)
        (owner g 0 = p) (owner g 1 = p) i j) (stored p))
      = (all.map fun g => virial ![fun k => (R g 0 k - R g 1 k) * F g,
          fun k => -((R g 0 k - R g 1 k) * F g)] (R g) i j).sum ∧
    reduce (fun p => localSum (fun g => bondStress' (F g) (fun k => R g 0 k - R g 1 k)
        (owner g 0 = p) (owner g 1 = p) i j) (stored p))
      = (all.map fun g => virial ![fun k => (R g 0 k - R g 1 k) * F g,
          fun k => -((R g 0 k - R g 1 k) * F g)] (R g) i j).sum := by
  have key : ∀ g, virial ![fun k => (R g 0 k - R g 1 k) * F g,
      fun k => -((R g 0 k - R g 1 k) * F g)] (R g) i j
      = (R g 0 i - R g 1 i) * F g * (R g 0 j - R g 1 j) := by
    intro g; simp [virial]; ring
  constructor
  · refine reduce_eq h (fun p g => bondStress (F g) (fun k => R g 0 k - R g 1 k)
        (owner g 0 = p) (owner g 1 = p) i j) _ (fun g _ => ?_)
    rw [key, ← share2 (owner g) ((R g 0 i - R g 1 i) * F g * (R g 0 j - R g 1 j))]
    apply Finset.sum_congr rfl
    intro p _
    simp only [bondStress]
    split
    · split
      · rfl
      · ring
    · rfl
  · refine reduce_eq h (fun p g => bondStress' (F g) (fun k => R g 0 k - R g 1 k)
        (owner g 0 = p) (owner g 1 = p) i j) _ (fun g _ => ?_)
    rw [key, ← share2 (owner g) ((R g 0 i - R g 1 i) * F g * (R g 0 j - R g 1 j))]
    apply Finset.sum_congr rfl
    intro p _
    simp only [bondStress']
    split
    · cases (decide (owner g 0 = p) && decide (owner g 1 = p)) <;> simp <;> ring
    · rfl

/-- The total angle stress, before division by the volume, is the virial of the forces on atoms,
however the atoms are distributed; it is also what the mcMd class computes. -/
theorem C52_angle_stress {all : List G} {owner : G → Fin 3 → P} {stored : P → List G}
    (h : Distributed all owner stored) (R : G → Fin 3 → Vec) (F : G → Vec × Vec) (i j : Fin 3) :
    reduce (fun p => localSum (fun g => Angle.ddStress (F g) (bondVec (R g) 0) (bondVec (R g) 1)
        (nLocal (owner g) p) i j) (stored p))
      = (all.map fun g => virial (Angle.atomForces (F g)) (R g) i j).sum ∧
    ∀ g, Angle.mcStress (F g) (bondVec (R g) 0) (bondVec (R g) 1) i j
      = virial (Angle.atomForces (F g)) (R g) i j := by
  have key : ∀ g, virial (Angle.atomForces (F g)) (R g) i j
      = -((F g).1 i * bondVec (R g) 0 j + (F g).2 i * bondVec (R g) 1 j) := by
    intro g; simp [virial, Angle.atomForces, bondVec, Fin.sum_univ_three]; ring
  refine ⟨reduce_eq h (fun p g => Angle.ddStress (F g) (bondVec (R g) 0) (bondVec (R g) 1)
        (nLocal (owner g) p) i j) _ (fun g _ => ?_), fun g => by rw [key]; unfold Angle.mcStress; ring⟩
  have e : ∀ p, Angle.ddStress (F g) (bondVec (R g) 0) (bondVec (R g) 1) (nLocal (owner g) p) i j
      = (nLocal (owner g) p : ℝ) * (-1 / 3 * ((F g).1 i * bondVec (R g) 0 j + (F g).2 i * bondVec (R g) 1 j)) := by
    intro p; unfold Angle.ddStress; ring
  simp only [e]
  rw [share, key]
  push_cast; ring

/-- The mcMd dihedral stress is the virial of the forces on atoms. -/
theorem C52_dihedral_stress_mc (R : Fin 4 → Vec) (F : Fin 3 → Vec) (i j : Fin 3) :
    mcStress F (bondVec R 0) (bondVec R 1) (bondVec R 2) i j = virial (atomForces F) R i j := by
  simp [mcStress, virial, atomForces, bondVec, Fin.sum_univ_four]; ring

theorem cross_self (b : Vec) : Angle.cross b b = fun _ => 0 := by
  funext i; fin_cases i <;> simp [Angle.cross] <;> ring

theorem forceWith_repeat (g : ℝ → ℝ) (b1 b2 : Vec) : forceWith g b1 b2 b2 = fun _ _ => 0 := by
  unfold forceWith
  have : computeDerivatives b1 b2 b2 = none := by
    have hz : normSq (Angle.cross b2 b2) < 1e-10 := by
      rw [cross_self]; simp [normSq]; norm_num
    simp only [computeDerivatives, if_pos hz]
    split <;> rfl
  rw [this]

/-- The ddMd dihedral stress is always zero, for both interactions: `computeStress` passes the
second bond vector twice. -/
theorem C52_dihedral_stress_zero (g : ℝ → ℝ) (stored : P → List G) (R : G → Fin 4 → Vec)
    (owner : G → Fin 4 → P) (i j : Fin 3) :
    reduce (fun p => localSum (fun q => ddStress (forceWith g) (bondVec (R q) 0) (bondVec (R q) 1)
      (bondVec (R q) 2) (nLocal (owner q) p) i j) (stored p)) = 0 := by
  have e : ∀ p q, ddStress (forceWith g) (bondVec (R q) 0) (bondVec (R q) 1)
      (bondVec (R q) 2) (nLocal (owner q) p) i j = 0 := by
    intro p q
    simp only [ddStress, forceWith_repeat]; ring
  unfold reduce
  simp only [e, localSum_eq]
  simp

/-- Two angles on two processors: the first has two atoms on processor 0 and one on processor 1,
the second is entirely on processor 1. -/
def exOwner : Bool → Fin 3 → Fin 2
  | true => ![0, 0, 1]
  | false => ![1, 1, 1]

theorem exDistributed : Distributed [true, false] exOwner (fun p => if p = 0 then [true] else [false, true]) := by
  refine ⟨by decide, fun p => ?_⟩
  fin_cases p
  · refine ⟨by simp, fun g => ?_⟩
    cases g <;> simp [exOwner, Fin.exists_fin_succ]
  · refine ⟨by simp, fun g => ?_⟩
    cases g <;> simp [exOwner, Fin.exists_fin_succ]

example : reduce (fun p : Fin 2 => localSum (fun g => Angle.ddEnergy (if g then 6 else 5) (nLocal (exOwner g) p))
    (if p = 0 then [true] else [false, true])) = 11 := by
  rw [C52_angle_energy exDistributed]; norm_num

/-- Four atoms in trans-gauche form, with a nonzero virial. -/
def exR : Fin 4 → Vec := ![![0, 1, 0], ![0, 0, 0], ![1, 0, 0], ![1, 1, 1]]

/-- The virial of the forces on the atoms of a cosine dihedral is not zero in general: the stress
reported by ddMd differs from that of mcMd. -/
theorem C52_dihedral_stress_wrong : ∃ (R : Fin 4 → Vec) (i j : Fin 3),
    ddStress (cosineForce 1) (bondVec R 0) (bondVec R 1) (bondVec R 2) 4 i j = 0 ∧
    mcStress (cosineForce 1 (bondVec R 0) (bondVec R 1) (bondVec R 2)) (bondVec R 0) (bondVec R 1)
      (bondVec R 2) i j ≠ 0 := by
  refine ⟨exR, 1, 2, ?_, ?_⟩
  · unfold cosineForce
    simp only [ddStress, forceWith_repeat]; ring
  · have b0 : bondVec exR 0 = ![0, -1, 0] := by funext i; fin_cases i <;> simp [bondVec, exR]
    have b1 : bondVec exR 1 = ![1, 0, 0] := by funext i; fin_cases i <;> simp [bondVec, exR]
    have b2 : bondVec exR 2 = ![0, 1, 1] := by funext i; fin_cases i <;> simp [bondVec, exR]
    rw [b0, b1, b2]
    have c1 : Angle.cross ![0, -1, 0] ![1, 0, 0] = ![0, 0, 1] := by
      funext i; fin_cases i <;> simp [Angle.cross]
    have c2 : Angle.cross ![1, 0, 0] ![0, 1, 1] = ![0, -1, 1] := by
      funext i; fin_cases i <;> simp [Angle.cross]
    have n1 : normSq (![0, 0, 1] : Vec) = 1 := by simp [normSq]
    have n2 : normSq (![0, -1, 1] : Vec) = 2 := by simp [normSq]; norm_num
    unfold cosineForce forceWith
    simp only [computeDerivatives, c1, c2, n1, n2]
    rw [if_neg (by norm_num), if_neg (by norm_num)]
    simp [mcStress, Angle.cross, dot]
    rw [← mul_inv, Real.mul_self_sqrt (by norm_num)]
    norm_num

end Verif.Dihedral.Sharing
